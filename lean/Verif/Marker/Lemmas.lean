import Verif.Marker.Model

namespace Verif.Marker

theorem Cfg.ones_eq (c : Cfg) : c.ones = 2 ^ c.K - 1 := by
  simp [Cfg.ones, Nat.shiftLeft_eq]

theorem testBit_mask (c : Cfg) (hK : c.K < 32) (i : Nat) :
    c.mask.testBit i = (decide (i < 32) && decide (c.K ≤ i)) := by
  have h : c.ones < 2 ^ 32 := by
    rw [c.ones_eq]
    have : 2 ^ c.K < 2 ^ 32 := Nat.pow_lt_pow_right (by omega) hK
    omega
  unfold Cfg.mask
  rw [show 2 ^ 32 - 1 - c.ones = 2 ^ 32 - (c.ones + 1) by omega, Nat.testBit_two_pow_sub_succ h,
    c.ones_eq, Nat.testBit_two_pow_sub_one]
  by_cases h1 : i < 32 <;> by_cases h2 : c.K ≤ i <;> simp [h1, h2] <;> omega

/-- Masking off the marker bits of a value with at most 32 bits. -/
theorem and_mask (c : Cfg) (hK : c.K < 32) {x : Nat} (hx : x < 2 ^ 32) :
    x &&& c.mask = x >>> c.K <<< c.K := by
  apply Nat.eq_of_testBit_eq
  intro i
  rw [Nat.testBit_and, testBit_mask c hK, Nat.testBit_shiftLeft, Nat.testBit_shiftRight]
  by_cases h2 : c.K ≤ i
  · rw [show c.K + (i - c.K) = i by omega]
    by_cases h1 : i < 32
    · simp [h1, h2]
    · have : x.testBit i = false :=
        Nat.testBit_lt_two_pow (Nat.lt_of_lt_of_le hx (Nat.pow_le_pow_right (by omega) (by omega)))
      simp [this]
  · simp [h2]

theorem testBit_shl_one (m i : Nat) : (1 <<< m).testBit i = decide (m = i) := by
  rw [Nat.shiftLeft_eq, Nat.one_mul, Nat.testBit_two_pow]

theorem and_bit (x m : Nat) : ((x &&& 1 <<< m) != 0) = x.testBit m := by
  cases hx : x.testBit m
  · have : x &&& 1 <<< m = 0 := by
      apply Nat.eq_of_testBit_eq
      intro i
      rw [Nat.testBit_and, testBit_shl_one, Nat.zero_testBit]
      by_cases h : m = i
      · subst h; simp [hx]
      · simp [h]
    simp [this]
  · rw [bne_iff_ne]
    intro h0
    have := congrArg (·.testBit m) h0
    simp [hx] at this

theorem or_bit_hi {K x m : Nat} (hm : m < K) : (x ||| 1 <<< m) >>> K = x >>> K := by
  apply Nat.eq_of_testBit_eq
  intro i
  rw [Nat.testBit_shiftRight, Nat.testBit_or, testBit_shl_one, Nat.testBit_shiftRight]
  have : m ≠ K + i := by omega
  simp [this]

theorem or_bit_lo (x m i : Nat) : (x ||| 1 <<< m).testBit i = (x.testBit i || decide (i = m)) := by
  rw [Nat.testBit_or, testBit_shl_one, show decide (m = i) = decide (i = m) by simp [eq_comm]]

/-- Invariant: the marker id is `j * 2^K`; an element carries the marks of the current generation or
those of an older one. -/
structure Inv (c : Cfg) (s : State) (mk : Marks) (j : Nat) : Prop where
  id : s.id = j <<< c.K
  small : s.id < 2 ^ 32
  smallw : s.id < 2 ^ c.w
  data_small : ∀ e, e < s.size → s.data e < 2 ^ 32 ∧ s.data e < 2 ^ c.w
  old : ∀ e, e < s.size → s.data e >>> c.K ≤ j
  mark : ∀ e m, e < s.size → m < c.K →
    mk e m = (decide (s.data e >>> c.K = j) && (s.data e).testBit m)
  out : ∀ e m, s.size ≤ e → mk e m = false
  last : j = 0 ∨ (j + 1) <<< c.K < 2 ^ c.w

theorem shl_shr (j K : Nat) : j <<< K >>> K = j := by
  simp

theorem hi_eq_iff {c : Cfg} (hK : c.K < 32) {x j : Nat} (hx : x < 2 ^ 32) :
    ((x &&& c.mask) == j <<< c.K) = decide (x >>> c.K = j) := by
  rw [and_mask c hK hx, Bool.eq_iff_iff, beq_iff_eq, decide_eq_true_eq]
  constructor
  · intro h
    have := congrArg (· >>> c.K) h
    simpa [shl_shr] using this
  · intro h; rw [h]

theorem Inv.get {c : Cfg} (hK : c.K < 32) {s : State} {mk : Marks} {j : Nat} (h : Inv c s mk j)
    {e m : Nat} (he : e < s.size) (hm : m < c.K) : c.get s e m = mk e m := by
  unfold Cfg.get
  rw [h.id, hi_eq_iff hK (h.data_small e he).1, and_bit, h.mark e m he hm]

theorem Inv.set {c : Cfg} (hK : c.K < 32) (hw : c.K ≤ c.w) {s : State} {mk : Marks} {j : Nat}
    (h : Inv c s mk j) {e m : Nat} (he : e < s.size) (hm : m < c.K) (t : Bool) :
    ∃ s', c.set? t s e m = some s' ∧ Inv c s' (Op.mark mk (.set t e m)) j ∧ s'.size = s.size ∧
      s'.id = s.id ∧ (t = false → s'.first = s.first) ∧
      (t = true → s'.first = upd s.first m (c.advance s' m s.size (s.first m))) := by
  have hbit : 1 <<< m < 2 ^ 32 := by
    rw [Nat.shiftLeft_eq, Nat.one_mul]; exact Nat.pow_lt_pow_right (by omega) (by omega)
  have hbitw : 1 <<< m < 2 ^ c.w := by
    rw [Nat.shiftLeft_eq, Nat.one_mul]; exact Nat.pow_lt_pow_right (by omega) (by omega)
  obtain ⟨hd1, hd2⟩ := h.data_small e he
  -- the new value
  have hv : ∃ v, (if (s.data e &&& c.mask) == s.id then s.data e ||| 1 <<< m
      else s.id ||| 1 <<< m) % 2 ^ c.w = v ∧ v < 2 ^ 32 ∧ v < 2 ^ c.w ∧ v >>> c.K = j ∧
      ∀ i, i < c.K → v.testBit i = (mk e i || decide (i = m)) := by
    rw [h.id, hi_eq_iff hK hd1]
    by_cases hcur : s.data e >>> c.K = j
    · simp only [hcur, decide_true, if_true]
      have hlt := Nat.or_lt_two_pow hd2 hbitw
      refine ⟨_, Nat.mod_eq_of_lt hlt, Nat.or_lt_two_pow hd1 hbit, hlt, ?_, ?_⟩
      · rw [or_bit_hi hm, hcur]
      · intro i hi
        rw [or_bit_lo, h.mark e i he hi, hcur]
        simp
    · simp only [hcur, decide_false, Bool.false_eq_true, if_false]
      have hlt := Nat.or_lt_two_pow h.smallw hbitw
      have hlt' := Nat.or_lt_two_pow h.small hbit
      rw [h.id] at hlt hlt'
      refine ⟨_, Nat.mod_eq_of_lt hlt, hlt', hlt, ?_, ?_⟩
      · rw [or_bit_hi hm, shl_shr]
      · intro i hi
        rw [or_bit_lo, h.mark e i he hi, Nat.testBit_shiftLeft]
        have : ¬ c.K ≤ i := by omega
        simp [this, hcur]
  obtain ⟨v, hv0, hv1, hv2, hv3, hv4⟩ := hv
  -- the invariant does not depend on `first`
  have key : ∀ first, Inv c { s with data := upd s.data e v, first := first }
      (Op.mark mk (.set t e m)) j := by
    intro first
    refine ⟨h.id, h.small, h.smallw, ?_, ?_, ?_, ?_, ?_⟩
    · intro e' he'
      show upd s.data e v e' < _ ∧ upd s.data e v e' < _
      by_cases hee : e' = e
      · subst hee; rw [upd_same]; exact ⟨hv1, hv2⟩
      · rw [upd_ne _ _ hee]; exact h.data_small e' he'
    · intro e' he'
      show upd s.data e v e' >>> c.K ≤ j
      by_cases hee : e' = e
      · subst hee; rw [upd_same, hv3]; exact Nat.le_refl _
      · rw [upd_ne _ _ hee]; exact h.old e' he'
    · intro e' m' he' hm'
      show upd mk e (upd (mk e) m true) e' m' =
        (decide (upd s.data e v e' >>> c.K = j) && (upd s.data e v e').testBit m')
      by_cases hee : e' = e
      · subst hee
        rw [upd_same, upd_same, hv3, hv4 m' hm']
        by_cases hmm : m' = m
        · subst hmm; simp
        · rw [upd_ne _ _ hmm]; simp [hmm]
      · rw [upd_ne _ _ hee, upd_ne _ _ hee]; exact h.mark e' m' he' hm'
    · intro e' m' he'
      show upd mk e (upd (mk e) m true) e' m' = false
      have hee : e' ≠ e := by
        rintro rfl
        exact absurd he (Nat.not_lt.2 he')
      rw [upd_ne _ _ hee]
      exact h.out e' m' he'
    · exact h.last
  have hadv : ∀ (f1 f2 : Nat → Nat) (fuel i : Nat),
      c.advance { s with data := upd s.data e v, first := f1 } m fuel i =
      c.advance { s with data := upd s.data e v, first := f2 } m fuel i := by
    intro f1 f2 fuel
    induction fuel with
    | zero => intro i; rfl
    | succ fuel ih =>
      intro i
      unfold Cfg.advance
      rw [ih]
      rfl
  unfold Cfg.set?
  rw [if_neg (by omega)]
  simp only [hv0]
  cases t with
  | false => exact ⟨_, rfl, key s.first, rfl, rfl, fun _ => rfl, fun h => nomatch h⟩
  | true =>
    refine ⟨_, rfl, key _, rfl, rfl, (fun h => nomatch h), fun _ => ?_⟩
    show upd s.first m (c.advance { s with data := upd s.data e v } m s.size (s.first m)) = _
    exact congrArg (upd s.first m) (hadv _ _ _ _)

theorem Inv.resize {c : Cfg} {s : State} {mk : Marks} {j : Nat} (h : Inv c s mk j) (cap : Nat) :
    Inv c (s.resize cap) (Op.mark mk (.resize cap)) j := by
  have hd : ∀ e, (s.resize cap).data e = if e < min s.size cap then s.data e else 0 := fun _ => rfl
  refine ⟨h.id, h.small, h.smallw, ?_, ?_, ?_, ?_, ?_⟩
  · intro e he
    rw [hd]
    split
    · exact h.data_small e (by omega)
    · exact ⟨Nat.two_pow_pos _, Nat.two_pow_pos _⟩
  · intro e he
    rw [hd]
    split
    · exact h.old e (by omega)
    · simp
  · intro e m he hm
    have he' : e < cap := he
    show (mk e m && decide (e < cap)) = _
    rw [hd]
    by_cases hes : e < s.size
    · rw [if_pos (by omega), h.mark e m hes hm]
      simp [he']
    · rw [if_neg (by omega), h.out e m (by omega)]
      simp
  · intro e m he
    have he' : cap ≤ e := he
    show (mk e m && decide (e < cap)) = false
    simp; omega
  · exact h.last

theorem ones_lt (c : Cfg) (hw : c.K ≤ c.w) : c.ones < 2 ^ c.w := by
  rw [c.ones_eq]
  have : 2 ^ c.K ≤ 2 ^ c.w := Nat.pow_le_pow_right (by omega) hw
  have := Nat.two_pow_pos c.K
  omega

theorem shl_or_ones (j K : Nat) : j <<< K ||| (2 ^ K - 1) = (j + 1) * 2 ^ K - 1 := by
  have h1 := Nat.shiftLeft_add_eq_or_of_lt (i := K) (b := 2 ^ K - 1)
    (by have := Nat.two_pow_pos K; omega) j
  rw [← h1, Nat.shiftLeft_eq, Nat.add_mul]
  have := Nat.two_pow_pos K
  omega

/-- `reset` as a function of the generation. -/
theorem reset_id {c : Cfg} (hw : c.K ≤ c.w) {s : State} {j : Nat} (hid : s.id = j <<< c.K)
    (hs : s.id < 2 ^ c.w) :
    (((s.id ||| c.ones) % 2 ^ c.w + 1) % 2 ^ c.w) = (j + 1) <<< c.K % 2 ^ c.w := by
  rw [Nat.mod_eq_of_lt (Nat.or_lt_two_pow hs (ones_lt c hw)), hid, c.ones_eq, shl_or_ones,
    Nat.shiftLeft_eq]
  have : 0 < (j + 1) * 2 ^ c.K := Nat.mul_pos (by omega) (Nat.two_pow_pos _)
  rw [Nat.sub_add_cancel this]

theorem Inv.new_gen {c : Cfg} {s : State} {mk : Marks} {j : Nat} (h : Inv c s mk j)
    (h32 : (j + 1) <<< c.K < 2 ^ 32) (hw : (j + 2) <<< c.K < 2 ^ c.w) (first : Nat → Nat) :
    Inv c { s with id := (j + 1) <<< c.K, first := first } (fun _ _ => false) (j + 1) := by
  have hp := Nat.two_pow_pos c.K
  refine ⟨rfl, h32, ?_, h.data_small, fun e he => Nat.le_succ_of_le (h.old e he), ?_,
    (fun _ _ _ => rfl), Or.inr hw⟩
  · show (j + 1) <<< c.K < _
    rw [Nat.shiftLeft_eq] at hw ⊢
    rw [Nat.add_mul] at hw ⊢
    omega
  intro e m he _
  have := h.old e he
  have : ¬ s.data e >>> c.K = j + 1 := by omega
  simp [this]

theorem Inv.cleared {c : Cfg} {s : State} (first : Nat → Nat) :
    Inv c { s with id := 0, first := first, data := fun _ => 0 } (fun _ _ => false) 0 := by
  refine ⟨by simp, Nat.two_pow_pos _, Nat.two_pow_pos _,
    fun _ _ => ⟨Nat.two_pow_pos _, Nat.two_pow_pos _⟩, (fun _ _ => by simp), ?_,
    (fun _ _ _ => rfl), Or.inl rfl⟩
  intro e m _ _
  simp

/-- In `w ≤ 32` bits: reset starts a new generation, clearing the data when the ids are used up. -/
theorem Inv.reset {c : Cfg} (hw : c.K ≤ c.w) (hw32 : c.w ≤ 32) {s : State} {mk : Marks} {j : Nat}
    (h : Inv c s mk j) :
    (∃ j', Inv c (c.reset s) (fun _ _ => false) j') ∧ (c.reset s).size = s.size ∧
      (c.reset s).first = fun _ => 0 := by
  have hp := Nat.two_pow_pos c.K
  unfold Cfg.reset
  simp only [reset_id hw h.id h.smallw]
  split
  · exact ⟨⟨0, Inv.cleared _⟩, rfl, rfl⟩
  · rename_i hmax
    refine ⟨⟨j + 1, ?_⟩, rfl, rfl⟩
    obtain ⟨d, hd⟩ : ∃ d, 2 ^ c.w = d * 2 ^ c.K := ⟨2 ^ (c.w - c.K), by
      rw [← Nat.pow_add]; congr 1; omega⟩
    have hj := h.smallw
    rw [h.id, Nat.shiftLeft_eq, hd] at hj
    have h1 : j < d := Nat.lt_of_mul_lt_mul_right hj
    -- the next id does not overflow
    have h2 : j + 1 < d := by
      rcases h.last with h0 | h0
      · subst h0
        apply Classical.byContradiction
        intro hge
        have : d = 1 := by omega
        subst this
        apply hmax
        rw [Nat.shiftLeft_eq, hd, c.ones_eq, Nat.zero_add, Nat.mod_self, Nat.zero_or, Nat.one_mul]
        exact BEq.rfl
      · rw [Nat.shiftLeft_eq, hd] at h0
        exact Nat.lt_of_mul_lt_mul_right h0
    have hlt : (j + 1) <<< c.K < 2 ^ c.w := by
      rw [Nat.shiftLeft_eq, hd]
      exact Nat.mul_lt_mul_of_pos_right h2 hp
    rw [Nat.mod_eq_of_lt hlt] at hmax ⊢
    have h3 : j + 2 < d := by
      apply Classical.byContradiction
      intro hge
      have : d = j + 2 := by omega
      apply hmax
      rw [c.ones_eq, shl_or_ones, hd, this]
      exact BEq.rfl
    refine h.new_gen (Nat.lt_of_lt_of_le hlt (Nat.pow_le_pow_right (by omega) hw32)) ?_ _
    rw [Nat.shiftLeft_eq, hd]
    exact Nat.mul_lt_mul_of_pos_right h3 hp

/-- In more than 32 bits: the same as long as the id fits into 32 bits. -/
theorem Inv.reset_wide {c : Cfg} (hw : c.K ≤ c.w) (hw32 : 32 < c.w) (hK : c.K < 32) {s : State}
    {mk : Marks} {j : Nat} (h : Inv c s mk j) (hj : j + 1 < 2 ^ (32 - c.K)) :
    Inv c (c.reset s) (fun _ _ => false) (j + 1) ∧ (c.reset s).size = s.size ∧
      (c.reset s).first = fun _ => 0 := by
  have hp := Nat.two_pow_pos c.K
  have h1 : (j + 1) <<< c.K < 2 ^ 32 := by
    have : (2 : Nat) ^ 32 = 2 ^ (32 - c.K) * 2 ^ c.K := by rw [← Nat.pow_add]; congr 1; omega
    rw [Nat.shiftLeft_eq, this]
    exact Nat.mul_lt_mul_of_pos_right hj hp
  have h32 : 2 ^ 32 * 2 ≤ 2 ^ c.w := by
    rw [← Nat.pow_succ]; exact Nat.pow_le_pow_right (by omega) (by omega)
  have hKlt : 2 ^ c.K < 2 ^ 32 := Nat.pow_lt_pow_right (by omega) hK
  have h2 : (j + 2) <<< c.K < 2 ^ c.w := by
    rw [Nat.shiftLeft_eq, Nat.add_mul] at h1 ⊢
    generalize j * 2 ^ c.K = a at *
    generalize 2 ^ c.K = b at *
    generalize 2 ^ c.w = d at *
    omega
  have h3 : (j + 1) <<< c.K < 2 ^ c.w := by
    generalize (j + 1) <<< c.K = a at *
    generalize 2 ^ c.w = d at *
    omega
  unfold Cfg.reset
  simp only [reset_id hw h.id h.smallw]
  rw [Nat.mod_eq_of_lt h3]
  split
  · rename_i hmax
    exfalso
    rw [beq_iff_eq] at hmax
    have := Nat.or_lt_two_pow h1 (show c.ones < 2 ^ 32 by rw [c.ones_eq]; omega)
    rw [hmax] at this
    generalize 2 ^ c.w = d at *
    omega
  · exact ⟨h.new_gen h1 h2 _, rfl, rfl⟩

/-! ## Tracking the first unmarked element -/

theorem advance_ok {c : Cfg} (hK : c.K < 32) {s : State} {mk : Marks} {j : Nat} (h : Inv c s mk j)
    {m : Nat} (hm : m < c.K) : ∀ (fuel i : Nat), s.size ≤ fuel + i → i ≤ s.size →
      (∀ e, e < i → mk e m = true) → FirstUnmarked mk s.size m (c.advance s m fuel i)
  | 0, i, hf, hi, hb => by
    unfold Cfg.advance
    exact ⟨hi, hb, fun h => by omega⟩
  | fuel + 1, i, hf, hi, hb => by
    unfold Cfg.advance
    split
    · rename_i hc
      refine advance_ok hK h hm fuel (i + 1) (by omega) hc.1 ?_
      intro e he
      by_cases hei : e = i
      · subst hei
        rw [← h.get hK hc.1 hm]; exact hc.2
      · exact hb e (by omega)
    · rename_i hc
      refine ⟨hi, hb, fun hlt => ?_⟩
      rw [← h.get hK hlt hm]
      have : c.get s i m ≠ true := fun h => hc ⟨hlt, h⟩
      simpa using this

end Verif.Marker
