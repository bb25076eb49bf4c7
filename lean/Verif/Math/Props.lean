import Verif.Math.Lemmas
import Verif.Util

/-!
# Properties C01, C02, C03: integer helpers

Specification vocabulary used below: `List.range' a k` is `[a, a+1, …, a+k-1]`, `List.range n` is
`[0, …, n-1]`, `List.Perm` is equality of multisets.
-/

namespace Verif.Math.Props
open Verif

/-- The indices of a half-open range `[a, b)`. -/
def indices (r : Nat × Nat) : List Nat := List.range' r.1 (r.2 - r.1)

/-! ## C01: static work split -/

/-- **C01 (tiling).** For every `n` and every number `p ≥ 1` of workers, each worker `r < p` gets a
range, and concatenating the workers' ranges in worker order gives exactly `0, 1, …, n-1`: the
ranges are contiguous, ordered, pairwise disjoint and cover everything. -/
theorem C01_ranges_tile (n p : Nat) (hp : 0 < p) :
    ∃ rng : Nat → Nat × Nat,
      (∀ r, r < p → localRange? n p r = some (rng r)) ∧
      (List.range p).flatMap (fun r => indices (rng r)) = List.range n := by
  refine ⟨fun r => (lrFrom n p r, lrFrom n p (r + 1)), fun r hr => localRange_eq hp hr, ?_⟩
  have := range'_append_lr n p p
  rw [lrFrom_last hp] at this
  exact this

/-- **C01 (fairness and bounds).** A worker's range lies within `[0, n]`, and its length is
`⌊n/p⌋` or `⌊n/p⌋ + 1`, so lengths differ by at most one. -/
theorem C01_ranges_fair (n p r a b : Nat) (hr : r < p) (h : localRange? n p r = some (a, b)) :
    a ≤ b ∧ b ≤ n ∧ (b - a = n / p ∨ b - a = n / p + 1) := by
  have hp : 0 < p := by omega
  rw [localRange_eq hp hr] at h
  simp only [Option.some.injEq, Prod.mk.injEq] at h
  obtain ⟨rfl, rfl⟩ := h
  have h1 := lrFrom_mono (n := n) (p := p) (show r + 1 ≤ p by omega)
  rw [lrFrom_last hp] at h1
  have h2 := lrFrom_succ n p r
  generalize n / p = c at *
  split at h2 <;> omega

/-- **C01 (owner lookup).** `compute_local_range_rank` on a `w`-bit unsigned type returns a worker,
and it is the one and only worker whose range contains the element. -/
theorem C01_rank_is_owner (w n p e : Nat) (hp : 0 < p) (he : e < n) (hw : n < 2 ^ w) :
    ∃ r, r < p ∧ localRangeRank? w n p e = some r ∧
      ∀ s, s < p → ∀ a b, localRange? n p s = some (a, b) → ((a ≤ e ∧ e < b) ↔ s = r) := by
  obtain ⟨r, h1, h2, h3, h4⟩ := localRangeRank_spec hp he hw
  refine ⟨r, h2, h1, ?_⟩
  intro s hs a b h
  rw [localRange_eq hp hs] at h
  simp only [Option.some.injEq, Prod.mk.injEq] at h
  obtain ⟨rfl, rfl⟩ := h
  constructor
  · rintro ⟨x, y⟩; exact lr_unique x y h3 h4
  · rintro rfl; exact ⟨h3, h4⟩

/-- **C01 (owner lookup in a distribution).** For every array `d₀ ≤ d₁ ≤ … ≤ d_p` of range limits
and every value with `d₀ ≤ value < d_p`, `find_in_distribution` returns the worker `r` with
`d_r ≤ value < d_{r+1}`. -/
theorem C01_find_in_distribution (value : Nat) (d : List Nat)
    (h0 : ∃ x, d[0]? = some x ∧ x ≤ value) (h1 : ∃ x ∈ d, value < x) :
    ∃ lo hi, d[findInDistribution value d]? = some lo ∧
      d[findInDistribution value d + 1]? = some hi ∧ lo ≤ value ∧ value < hi := by
  obtain ⟨x, hx, hxv⟩ := h0
  cases d with
  | nil => simp at hx
  | cons a rest =>
    simp only [List.getElem?_cons_zero, Option.some.injEq] at hx
    subst hx
    obtain ⟨y, hy, hyv⟩ := h1
    have hyr : y ∈ rest := by
      rcases List.mem_cons.1 hy with rfl | h
      · omega
      · exact h
    have hlt : rest.findIdx (fun x => decide (value < x)) < rest.length :=
      List.findIdx_lt_length_of_exists ⟨y, hyr, by simpa using hyv⟩
    have hhi : ∃ hi, rest[rest.findIdx (fun x => decide (value < x))]? = some hi ∧ value < hi :=
      ⟨_, List.getElem?_eq_getElem hlt, by simpa using List.findIdx_getElem (w := hlt)⟩
    have hnot : ∀ j z, j < rest.findIdx (fun x => decide (value < x)) → rest[j]? = some z →
        z ≤ value := by
      intro j z hj hz
      have h := List.not_of_lt_findIdx hj
      rw [List.getElem?_eq_getElem (by omega)] at hz
      cases hz
      simpa using h
    have hf : findInDistribution value (a :: rest) =
        rest.findIdx (fun x => decide (value < x)) := by
      simp [findInDistribution, upperBoundFrom1]
    rw [hf]
    clear hf
    generalize rest.findIdx (fun x => decide (value < x)) = i at *
    obtain ⟨hi, hhi, hv⟩ := hhi
    cases i with
    | zero => exact ⟨a, hi, rfl, hhi, hxv, hv⟩
    | succ i =>
      have hlo : rest[i]? = some rest[i] := List.getElem?_eq_getElem (by omega)
      exact ⟨rest[i], hi, hlo, hhi, hnot i _ (by omega) hlo, hv⟩

example : findInDistribution 7 [0, 3, 7, 7, 12] = 3 := by decide

/-- **C01 (parallel loop).** Whatever the number `c ≥ 1` of threads, and in whichever order the
calls made by `deterministic_for(from, to, …)` are executed, the indices they process are
`from, …, to-1`, each exactly once. -/
theorem C01_deterministic_for_visits_each_once (c fr to : Nat) (hc : 0 < c)
    (calls : List (Nat × Nat × Nat)) (horder : calls.Perm (deterministicForCalls c fr to)) :
    (calls.flatMap (fun x => indices (x.1, x.2.1))).Perm (List.range' fr (to - fr)) := by
  refine (horder.flatMap_right _).trans ?_
  by_cases hn : to - fr = 0
  · simp [deterministicForCalls, hn]
  have hp : 0 < min c (to - fr) := by omega
  obtain ⟨rng, h1, h2⟩ := C01_ranges_tile (to - fr) (min c (to - fr)) hp
  have hcalls : deterministicForCalls c fr to =
      (List.range (min c (to - fr))).map (fun cpu => (fr + (rng cpu).1, fr + (rng cpu).2, cpu)) := by
    unfold deterministicForCalls
    simp only
    rw [← List.filterMap_eq_map]
    refine filterMap_congr' fun x hx => ?_
    rw [h1 x (List.mem_range.1 hx)]; rfl
  rw [hcalls, List.flatMap_map]
  have : ∀ cpu, indices (fr + (rng cpu).1, fr + (rng cpu).2) = (indices (rng cpu)).map (fr + ·) := by
    intro cpu
    simp only [indices]
    rw [List.map_add_range']
    congr 1; omega
  simp only [this]
  rw [← List.map_flatMap, h2]
  rw [List.range_eq_range', List.map_add_range']
  simp

-- non-vacuity: ten items over three workers, and a different call order of the parallel loop
example : localRange? 10 3 0 = some (0, 4) ∧ localRange? 10 3 2 = some (7, 10) ∧
    localRangeRank? 32 10 3 7 = some 2 := by decide
example : [(8, 11, 1), (5, 8, 0)].Perm (deterministicForCalls 2 5 11) := by decide

/-! ## C02: degree buckets -/

/-- **C02.** For every 32-bit degree the bucket index is defined and a valid index, and for every
bucket `b` whose lower bound is defined, `lowest_degree_in_bucket(b) ≤ d` holds iff `b` is at most
the bucket of `d`.  So `d` lies in exactly one bucket, the one with
`lowest(b) ≤ d < lowest(b+1)`, and buckets are monotone in the degree. -/
theorem C02_buckets_partition_degrees (d : Nat) (hd : d < 2 ^ 32) :
    ∃ b, degreeBucket? d = some b ∧ b < numDegreeBuckets ∧
      ∀ c l, lowestDegreeInBucket? c = some l → (l ≤ d ↔ c ≤ b) := by
  rw [degreeBucket_eq hd]
  refine ⟨_, rfl, ?_, ?_⟩
  · split
    · decide
    · rename_i h
      have := (Nat.log2_lt h).2 hd
      simp only [numDegreeBuckets]; omega
  · intro c l hl
    unfold lowestDegreeInBucket? at hl
    split at hl
    · simp only [Option.some.injEq] at hl
      subst hl
      rw [Nat.shiftRight_eq_div_pow]
      cases c with
      | zero => simp
      | succ c =>
        have : 2 ^ (c + 1) / 2 ^ 1 = 2 ^ c := by rw [Nat.pow_succ]; omega
        rw [this]
        split
        · rename_i h; subst h
          have := Nat.two_pow_pos c
          omega
        · rename_i h
          rw [← Nat.le_log2 h]; omega
    · simp at hl

/-- **C02 (monotone).** A larger degree never falls into a smaller bucket. -/
theorem C02_bucket_monotone (d e b c : Nat) (hde : d ≤ e) (he : e < 2 ^ 32)
    (hb : degreeBucket? d = some b) (hc : degreeBucket? e = some c) : b ≤ c := by
  rw [degreeBucket_eq (by omega)] at hb
  rw [degreeBucket_eq he] at hc
  simp only [Option.some.injEq] at hb hc
  subst hb hc
  split
  · omega
  · rename_i h
    rw [if_neg (by omega)]
    have : Nat.log2 d ≤ Nat.log2 e := by
      rw [Nat.le_log2 (by omega)]
      exact Nat.le_trans ((Nat.le_log2 h).1 (Nat.le_refl _)) hde
    omega

/-- **C02 (boundary).** The lower bound of the last valid bucket (index 32, degrees `≥ 2^31`) is a
shift by the type width, which the C++ standard leaves undefined. -/
theorem C02_last_bucket_bound_undefined :
    degreeBucket? (2 ^ 31) = some 32 ∧ 32 < numDegreeBuckets ∧ lowestDegreeInBucket? 32 = none := by
  refine ⟨?_, by decide, by decide⟩
  rw [degreeBucket_eq (by decide)]; decide +kernel

example : degreeBucket? 12 = some 4 ∧ lowestDegreeInBucket? 4 = some 8 ∧
    lowestDegreeInBucket? 5 = some 16 := by decide +kernel

/-! ## C03: round-robin distribution -/

/-- **C03 is false of the code**: with `n = 6` and `size = 3` the two positions 1 and 4 are both
mapped to 2, so the documented permutation is none. -/
theorem C03_round_robin_not_injective :
    ∃ n size a b : Nat, 0 < size ∧ a < n ∧ b < n ∧ a ≠ b ∧
      distributeRoundRobin? 32 n size a = distributeRoundRobin? 32 n size b ∧
      (distributeRoundRobin? 32 n size a).isSome :=
  ⟨6, 3, 1, 4, by decide⟩

theorem localRangeRank_dvd {w s c o l : Nat} (hs : 0 < s) (hl : l < c) (ho : o < s)
    (hw : s * c < 2 ^ w) : localRangeRank? w (s * c) s (o * c + l) = some o := by
  have hc : 0 < c := by omega
  have hlt : o * c + l < s * c := by
    have : (o + 1) * c ≤ s * c := Nat.mul_le_mul_right _ ho
    rw [Nat.add_mul] at this; omega
  obtain ⟨r, h1, _, h3, h4⟩ := localRangeRank_spec (w := w) (p := s) hs hlt hw
  have hf : ∀ r, lrFrom (s * c) s r = r * c := by
    intro r; simp [lrFrom, Nat.mul_div_cancel_left _ hs]
  have : r = o := by
    apply lr_unique (n := s * c) (p := s) h3 h4
    · rw [hf]; omega
    · rw [hf, Nat.add_mul]; omega
  rw [h1, this]

theorem roundRobin_eval {w s d e o q t : Nat} (hs : 0 < s) (ho : o < s) (hq : q < d) (ht : t < s)
    (he : e = o * (s * d) + (q * s + t)) (hw : s * (s * d) < 2 ^ w) :
    distributeRoundRobin? w (s * (s * d)) s e = some ((t * d + q) * s + o) := by
  have hl : q * s + t < s * d := by
    have : (q + 1) * s ≤ d * s := Nat.mul_le_mul_right _ hq
    rw [Nat.add_mul] at this; rw [Nat.mul_comm s d]; omega
  unfold distributeRoundRobin?
  rw [he, localRangeRank_dvd hs hl ho hw]
  have hf : ∀ r, lrFrom (s * (s * d)) s r = r * (s * d) := by
    intro r; simp [lrFrom, Nat.mul_div_cancel_left _ hs]
  have h1 : o * (s * d) + (q * s + t) - o * (s * d) = t + s * q := by
    rw [Nat.mul_comm s q]; omega
  have h2 : (t + s * q) % s = t := by
    rw [Nat.add_mul_mod_self_left, Nat.mod_eq_of_lt ht]
  have h3 : (t + s * q) / s = q := by
    rw [Nat.add_mul_div_left _ _ hs, Nat.div_eq_of_lt ht]; omega
  simp only [Option.bind_eq_bind, Option.bind_some, localRange_eq hs ho, hf, h1, h2, h3,
    localRange_eq hs ht]
  rw [if_neg (by omega)]
  congr 1
  rw [Nat.add_mul, Nat.mul_comm s d, Nat.mul_assoc]

/-- **C03, proved part.** If `n` is a multiple of `size²`, the map is a permutation of `0..n-1`
(it is defined, stays in range and is injective).
Missing: all other `n`, where the claim fails in general (`C03_round_robin_not_injective`). -/
theorem C03_round_robin_permutation_partial (w s d : Nat) (hs : 0 < s) (hw : s * (s * d) < 2 ^ w) :
    (∀ e, e < s * (s * d) → ∃ x, distributeRoundRobin? w (s * (s * d)) s e = some x ∧ x < s * (s * d)) ∧
    (∀ e f, e < s * (s * d) → f < s * (s * d) →
      distributeRoundRobin? w (s * (s * d)) s e = distributeRoundRobin? w (s * (s * d)) s f → e = f) := by
  have decomp : ∀ e, e < s * (s * d) → ∃ o q t, o < s ∧ q < d ∧ t < s ∧
      e = o * (s * d) + (q * s + t) := by
    intro e he
    have hpos : 0 < s * d := by
      rcases Nat.eq_zero_or_pos (s * d) with h | h
      · rw [h] at he; simp at he
      · exact h
    refine ⟨e / (s * d), (e % (s * d)) / s, (e % (s * d)) % s, ?_, ?_, Nat.mod_lt _ hs, ?_⟩
    · rw [Nat.div_lt_iff_lt_mul hpos]; exact he
    · rw [Nat.div_lt_iff_lt_mul hs, Nat.mul_comm d s]; exact Nat.mod_lt _ hpos
    · have h1 := Nat.div_add_mod e (s * d)
      have h2 := Nat.div_add_mod (e % (s * d)) s
      rw [Nat.mul_comm (e / (s * d)), Nat.mul_comm (e % (s * d) / s)]; omega
  constructor
  · intro e he
    obtain ⟨o, q, t, ho, hq, ht, heq⟩ := decomp e he
    refine ⟨_, roundRobin_eval hs ho hq ht heq hw, ?_⟩
    have h1 : (t + 1) * d ≤ s * d := Nat.mul_le_mul_right _ ht
    rw [Nat.add_mul] at h1
    have h2 : (t * d + q + 1) * s ≤ (s * d) * s := Nat.mul_le_mul_right _ (by omega)
    rw [Nat.add_mul] at h2
    rw [Nat.mul_comm s (s * d)]; omega
  · intro e f he hf heq
    obtain ⟨o, q, t, ho, hq, ht, rfl⟩ := decomp e he
    obtain ⟨o', q', t', ho', hq', ht', rfl⟩ := decomp f hf
    rw [roundRobin_eval hs ho hq ht rfl hw, roundRobin_eval hs ho' hq' ht' rfl hw] at heq
    simp only [Option.some.injEq] at heq
    have e1 : o = o' := by
      have := congrArg (· % s) heq
      simpa [Nat.mul_comm _ s, Nat.mul_add_mod, Nat.mod_eq_of_lt ho, Nat.mod_eq_of_lt ho'] using this
    subst e1
    have e2 : t * d + q = t' * d + q' := Nat.eq_of_mul_eq_mul_right hs (by omega)
    have e3 : q = q' := by
      have := congrArg (· % d) e2
      simpa [Nat.mul_comm _ d, Nat.mul_add_mod, Nat.mod_eq_of_lt hq, Nat.mod_eq_of_lt hq'] using this
    subst e3
    have e4 : t = t' := Nat.eq_of_mul_eq_mul_right (show 0 < d by omega) (by omega)
    subst e4; rfl

example : distributeRoundRobin? 32 18 3 (1 * 6 + 4) = some 10 := by decide

end Verif.Math.Props
