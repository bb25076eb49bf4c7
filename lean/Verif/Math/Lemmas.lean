import Verif.Math.Model

namespace Verif.Math

theorem subW_of_le {w a b : Nat} (hab : b ≤ a) (ha : a < 2 ^ w) : subW w a b = a - b := by
  unfold subW
  have : a + 2 ^ w - b = (a - b) + 2 ^ w := by omega
  rw [this, Nat.add_mod_right]
  exact Nat.mod_eq_of_lt (by omega)

/-- first element of the local range of `rank` -/
def lrFrom (n p r : Nat) : Nat := r * (n / p) + min r (n % p)

theorem lrFrom_zero (n p : Nat) : lrFrom n p 0 = 0 := by simp [lrFrom]

theorem lrFrom_last {n p : Nat} (hp : 0 < p) : lrFrom n p p = n := by
  unfold lrFrom
  have h1 : n % p < p := Nat.mod_lt _ hp
  have h2 := Nat.div_add_mod n p
  rw [Nat.min_eq_right (by omega)]
  omega

theorem lrFrom_succ (n p r : Nat) :
    lrFrom n p (r + 1) = lrFrom n p r + (if r < n % p then n / p + 1 else n / p) := by
  unfold lrFrom
  rw [Nat.add_mul, Nat.one_mul]
  split <;> omega

theorem lrFrom_mono {n p a b : Nat} (h : a ≤ b) : lrFrom n p a ≤ lrFrom n p b := by
  induction h with
  | refl => exact Nat.le_refl _
  | step _ ih => rw [Nat.succ_eq_add_one, lrFrom_succ]; omega

theorem localRange_eq {n p r : Nat} (hp : 0 < p) (hr : r < p) :
    localRange? n p r = some (lrFrom n p r, lrFrom n p (r + 1)) := by
  have hle : lrFrom n p (r + 1) ≤ n := by
    have := lrFrom_mono (n := n) (p := p) (show r + 1 ≤ p by omega)
    rw [lrFrom_last hp] at this; exact this
  rw [lrFrom_succ] at hle ⊢
  unfold localRange? 
  rw [if_neg (by omega)]
  simp only [Option.some.injEq, Prod.mk.injEq]
  refine ⟨rfl, ?_⟩
  show min (lrFrom n p r + _) n = _
  omega

theorem range'_append_lr (n p : Nat) (r : Nat) :
    (List.range r).flatMap (fun i => List.range' (lrFrom n p i) (lrFrom n p (i + 1) - lrFrom n p i))
      = List.range (lrFrom n p r) := by
  induction r with
  | zero => simp [lrFrom_zero]
  | succ r ih =>
    rw [List.range_succ, List.flatMap_append, ih]
    have := lrFrom_mono (n := n) (p := p) (show r ≤ r + 1 by omega)
    simp only [List.flatMap_cons, List.flatMap_nil, List.append_nil]
    rw [List.range_eq_range', List.range_eq_range']
    have h := List.range'_append_1 (s := 0) (m := lrFrom n p r)
      (n := lrFrom n p (r + 1) - lrFrom n p r)
    simp only [Nat.zero_add] at h
    rw [h]; congr 1; omega

theorem lr_unique {n p e a b : Nat} (ha : lrFrom n p a ≤ e) (ha' : e < lrFrom n p (a + 1))
    (hb : lrFrom n p b ≤ e) (hb' : e < lrFrom n p (b + 1)) : a = b := by
  rcases Nat.lt_trichotomy a b with h | h | h
  · have := lrFrom_mono (n := n) (p := p) (show a + 1 ≤ b by omega); omega
  · exact h
  · have := lrFrom_mono (n := n) (p := p) (show b + 1 ≤ a by omega); omega

theorem div_bounds {a c q : Nat} (hc : 0 < c) (h : a / c = q) : q * c ≤ a ∧ a < (q + 1) * c := by
  subst h
  exact ⟨Nat.div_mul_le_self a c, by
    have := Nat.lt_div_mul_add (a := a) hc; rw [Nat.add_mul, Nat.one_mul]; exact this⟩

theorem localRangeRank_spec {w n p e : Nat} (hp : 0 < p) (he : e < n) (hw : n < 2 ^ w) :
    ∃ r, localRangeRank? w n p e = some r ∧ r < p ∧ lrFrom n p r ≤ e ∧ e < lrFrom n p (r + 1) := by
  unfold localRangeRank?
  have hdm := Nat.div_add_mod n p
  have hmod : n % p < p := Nat.mod_lt _ hp
  by_cases hnp : n ≤ p
  · refine ⟨e, by rw [if_pos hnp], by omega, ?_⟩
    by_cases heq : n = p
    · subst heq
      have : n / n = 1 := Nat.div_self hp
      simp [lrFrom, this, Nat.mod_self]
    · have h0 : n / p = 0 := Nat.div_eq_of_lt (by omega)
      have h1 : n % p = n := Nat.mod_eq_of_lt (by omega)
      simp only [lrFrom, h0, h1]; omega
  · rw [if_neg hnp, if_neg (by omega)]
    simp only
    have hc : 0 < n / p := Nat.div_pos (by omega) hp
    generalize hcd : n / p = c at *
    generalize hrd : n % p = rem at *
    have hlr : ∀ r, lrFrom n p r = r * c + min r rem := by intro r; simp [lrFrom, hcd, hrd]
    have key1 : ∀ q, e / (c + 1) = q → e < rem * (c + 1) →
        q < p ∧ lrFrom n p q ≤ e ∧ e < lrFrom n p (q + 1) := by
      intro q hq hlt
      obtain ⟨h1, h2⟩ := div_bounds (by omega) hq
      have hqr : q < rem := by
        have : q * (c + 1) < rem * (c + 1) := by omega
        exact Nat.lt_of_mul_lt_mul_right this
      refine ⟨by omega, ?_, ?_⟩
      · rw [hlr, Nat.min_eq_left (by omega)]; rw [Nat.mul_add] at h1; omega
      · rw [hlr, Nat.min_eq_left (by omega)]; rw [Nat.mul_add] at h2; omega
    by_cases hlt : e < rem
    · refine ⟨_, by rw [if_pos (Or.inl hlt)], key1 _ rfl ?_⟩
      rw [Nat.mul_add]; omega
    · rw [subW_of_le (by omega) (by omega)]
      generalize hr0 : (e - rem) / c = r0
      obtain ⟨h1, h2⟩ := div_bounds hc hr0
      by_cases hr : r0 < rem
      · refine ⟨_, by rw [if_pos (Or.inr hr)], key1 _ rfl ?_⟩
        have : (r0 + 1) * c ≤ rem * c := Nat.mul_le_mul_right _ (by omega)
        rw [Nat.mul_add]; omega
      · refine ⟨_, by rw [if_neg (by omega)], ?_, ?_, ?_⟩
        · have hcm : p * c = c * p := Nat.mul_comm p c
          have : r0 * c < p * c := by omega
          exact Nat.lt_of_mul_lt_mul_right this
        · rw [hlr, Nat.min_eq_right (by omega)]; omega
        · rw [hlr, Nat.min_eq_right (by omega)]; omega

theorem clz_eq {w x : Nat} (hx : x ≠ 0) (hw : x < 2 ^ w) : w = clz w x + Nat.log2 x + 1 := by
  induction w with
  | zero => simp at hw; omega
  | succ w ih =>
    unfold clz
    by_cases hb : x.testBit w
    · rw [if_pos hb]
      have hge : 2 ^ w ≤ x := Nat.ge_two_pow_of_testBit hb
      have : Nat.log2 x = w := by
        rw [Nat.log2_eq_iff hx]; exact ⟨hge, hw⟩
      omega
    · rw [if_neg hb]
      have hlt : x < 2 ^ w := by
        rcases Nat.lt_or_ge x (2 ^ w) with h | h
        · exact h
        · exfalso; apply hb
          exact Nat.testBit_of_two_pow_le_and_two_pow_add_one_gt h hw
      have := ih hlt
      omega

theorem floorLog2_eq {w x : Nat} (hx : x ≠ 0) (hw : x < 2 ^ w) :
    floorLog2? w x = some (Nat.log2 x) := by
  unfold floorLog2?
  rw [if_neg hx]
  have := clz_eq hx hw
  congr 1; omega

theorem degreeBucket_eq {d : Nat} (hd : d < 2 ^ 32) :
    degreeBucket? d = some (if d = 0 then 0 else Nat.log2 d + 1) := by
  unfold degreeBucket?
  split
  · rfl
  · rename_i h; rw [floorLog2_eq h hd]; rfl

theorem and_pred_eq_zero_iff {x : Nat} (hx : x ≠ 0) :
    x &&& (x - 1) = 0 ↔ x = 2 ^ Nat.log2 x := by
  have h1 := (Nat.log2_eq_iff (k := Nat.log2 x) hx).1 rfl
  constructor
  · intro h
    rcases Nat.lt_or_ge (2 ^ Nat.log2 x) x with hlt | hge
    · exfalso
      have hb1 : x.testBit (Nat.log2 x) = true :=
        Nat.testBit_of_two_pow_le_and_two_pow_add_one_gt h1.1 h1.2
      have hb2 : (x - 1).testBit (Nat.log2 x) = true :=
        Nat.testBit_of_two_pow_le_and_two_pow_add_one_gt (by omega) (by omega)
      have := congrArg (fun y => y.testBit (Nat.log2 x)) h
      simp [Nat.testBit_and, hb1, hb2] at this
    · omega
  · intro h
    rw [h]
    have := Nat.and_two_pow_sub_one_eq_mod (2 ^ Nat.log2 x) (Nat.log2 x)
    rw [this, Nat.mod_self]

/-- `ceil_log2` is the least exponent whose power of two is at least the argument. -/
theorem ceilLog2_spec {w x : Nat} (hx : x ≠ 0) (hw : x < 2 ^ w) :
    ∃ l, ceilLog2? w x = some l ∧ x ≤ 2 ^ l ∧ ∀ j, x ≤ 2 ^ j → l ≤ j := by
  unfold ceilLog2?
  rw [floorLog2_eq hx hw]
  have h1 := (Nat.log2_eq_iff (k := Nat.log2 x) hx).1 rfl
  refine ⟨_, rfl, ?_, ?_⟩ <;> simp only
  · split
    · rename_i h; rw [and_pred_eq_zero_iff hx] at h
      rw [Nat.add_sub_cancel]; omega
    · simp only [Nat.sub_zero]; omega
  · intro j hj
    split
    · rename_i h; rw [and_pred_eq_zero_iff hx] at h
      rw [Nat.add_sub_cancel]
      rw [h] at hj
      exact (Nat.pow_le_pow_iff_right (by omega)).1 hj
    · rename_i h; rw [and_pred_eq_zero_iff hx] at h
      simp only [Nat.sub_zero]
      have : 2 ^ Nat.log2 x < 2 ^ j := by omega
      have := (Nat.pow_lt_pow_iff_right (by omega)).1 this
      omega

theorem ceilLog2_pow {w l : Nat} (hl : l < w) : ceilLog2? w (2 ^ l) = some l := by
  have hne : (2:Nat) ^ l ≠ 0 := by have := Nat.two_pow_pos l; omega
  obtain ⟨j, hj, h1, h2⟩ := ceilLog2_spec (w := w) (x := 2 ^ l) hne
    ((Nat.pow_lt_pow_iff_right (by omega)).2 hl)
  have a := h2 l (Nat.le_refl _)
  have b := (Nat.pow_le_pow_iff_right (by omega : 1 < 2)).1 h1
  have : j = l := by omega
  rw [hj, this]

end Verif.Math
