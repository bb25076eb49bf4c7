import Verif.Varint.Model

namespace Verif.Varint

theorem and127 (i : Nat) : i &&& 127 = i % 128 := by
  rw [show (127 : Nat) = 2 ^ 7 - 1 from rfl, Nat.and_two_pow_sub_one_eq_mod]

theorem and63 (i : Nat) : i &&& 63 = i % 64 := by
  rw [show (63 : Nat) = 2 ^ 6 - 1 from rfl, Nat.and_two_pow_sub_one_eq_mod]

theorem or_add {a k : Nat} (b : Nat) (ha : a < 2 ^ k) : a ||| (b <<< k) = a + b * 2 ^ k := by
  rw [Nat.or_comm, ← Nat.shiftLeft_add_eq_or_of_lt ha, Nat.shiftLeft_eq]; omega

theorem contByte (i : Nat) : (i &&& 127) ||| 128 = i % 128 + 128 := by
  rw [and127]
  have := or_add (a := i % 128) (k := 7) 1 (Nat.mod_lt _ (by decide))
  simpa using this

theorem testBit_lt_pow {x k : Nat} (h : x < 2 ^ k) : x.testBit k = false := Nat.testBit_lt_two_pow h

theorem and_pow_eq_zero_iff (x k : Nat) : x &&& 2 ^ k = 0 ↔ x.testBit k = false := by
  constructor
  · intro h
    have := congrArg (fun y => y.testBit k) h
    simpa [Nat.testBit_and] using this
  · intro hb
    apply Nat.eq_of_testBit_eq
    intro i
    rw [Nat.testBit_and, Nat.testBit_two_pow]
    by_cases him : k = i
    · subst him; simp [hb]
    · simp [him]

theorem lowByte_cont {b : Nat} (h : b < 128) : b &&& 128 = 0 := by
  rw [show (128 : Nat) = 2 ^ 7 from rfl, and_pow_eq_zero_iff]
  exact Nat.testBit_lt_two_pow h

theorem highByte_cont {b : Nat} (h : 128 ≤ b) (h' : b < 256) : b &&& 128 ≠ 0 := by
  rw [show (128 : Nat) = 2 ^ 7 from rfl, Ne, and_pow_eq_zero_iff]
  simp [Nat.testBit_of_two_pow_le_and_two_pow_add_one_gt (i := 7) h h']

theorem varintEncode_small {i : Nat} (h : i ≤ 127) : varintEncode i = [i] := by
  rw [varintEncode, if_neg (by omega), and127, Nat.mod_eq_of_lt (by omega)]

theorem varintEncode_big {i : Nat} (h : 127 < i) :
    varintEncode i = (i % 128 + 128) :: varintEncode (i / 128) := by
  rw [varintEncode, if_pos h, contByte, Nat.shiftRight_eq_div_pow]

theorem varintLength_small {i : Nat} (h : i ≤ 127) : varintLength i = 1 := by
  rw [varintLength, if_neg (by omega)]

theorem varintLength_big {i : Nat} (h : 127 < i) : varintLength i = 1 + varintLength (i / 128) := by
  rw [varintLength, if_pos h, Nat.shiftRight_eq_div_pow]

/-- induction principle along 7-bit groups -/
theorem groupInduction {P : Nat → Prop} (hs : ∀ i, i ≤ 127 → P i)
    (hb : ∀ i, 127 < i → P (i / 128) → P i) (i : Nat) : P i := by
  induction i using Nat.strongRecOn with
  | ind i ih =>
    by_cases h : i ≤ 127
    · exact hs i h
    · exact hb i (by omega) (ih _ (by omega))

theorem length_varintEncode (i : Nat) : (varintEncode i).length = varintLength i := by
  induction i using groupInduction with
  | hs i h => rw [varintEncode_small h, varintLength_small h]; rfl
  | hb i h ih => rw [varintEncode_big h, varintLength_big h]; simp [ih]; omega

theorem varintLength_pos (i : Nat) : 1 ≤ varintLength i := by
  rw [varintLength]; split <;> omega

theorem varintEncode_bytes (i : Nat) : ∀ b ∈ varintEncode i, b < 256 := by
  induction i using groupInduction with
  | hs i h => rw [varintEncode_small h]; simp; omega
  | hb i h ih =>
    rw [varintEncode_big h]
    intro b hb
    rcases List.mem_cons.1 hb with rfl | hb
    · have := Nat.mod_lt i (show 0 < 128 by decide); omega
    · exact ih b hb

theorem varintLength_le (i : Nat) : ∀ k, i < 2 ^ (7 * k) → 0 < k → varintLength i ≤ k := by
  induction i using groupInduction with
  | hs i h => intro k _ hk; rw [varintLength_small h]; omega
  | hb i h ih =>
    intro k hk hk0
    rw [varintLength_big h]
    obtain ⟨k, rfl⟩ : ∃ j, k = j + 1 := ⟨k - 1, by omega⟩
    have hk1 : 0 < k := by
      rcases Nat.eq_zero_or_pos k with h0 | h0
      · subst h0; simp at hk; omega
      · exact h0
    have : i / 128 < 2 ^ (7 * k) := by
      rw [Nat.div_lt_iff_lt_mul (by decide)]
      have e : 2 ^ (7 * (k + 1)) = 2 ^ (7 * k) * 128 := by
        rw [Nat.mul_add, Nat.pow_add]
      omega
    have := ih k this hk1
    omega

theorem decodeLoop_encode (w : Nat) (x : Nat) : ∀ shift value rest, shift < w → value < 2 ^ shift →
    x * 2 ^ shift < 2 ^ w →
    decodeLoop w shift value (varintEncode x ++ rest) = some (value + x * 2 ^ shift, rest) := by
  induction x using groupInduction with
  | hs x h =>
    intro s v rest hs hv hx
    rw [varintEncode_small h]
    show decodeLoop w s v (x :: rest) = _
    rw [decodeLoop, if_neg (by omega), if_pos (lowByte_cont (by omega)),
      Nat.mod_eq_of_lt (by rw [Nat.shiftLeft_eq]; exact hx), or_add _ hv]
  | hb x h ih =>
    intro s v rest hs hv hx
    rw [varintEncode_big h]
    have hm : x % 128 < 128 := Nat.mod_lt _ (by decide)
    show decodeLoop w s v ((x % 128 + 128) :: (varintEncode (x / 128) ++ rest)) = _
    have hle : (x % 128) * 2 ^ s ≤ x * 2 ^ s := Nat.mul_le_mul_right _ (Nat.mod_le _ _)
    have hdm := Nat.div_add_mod x 128
    have hpow : 2 ^ (s + 7) = 2 ^ s * 128 := by rw [Nat.pow_add]
    have hq : x / 128 * 2 ^ (s + 7) = (128 * (x / 128)) * 2 ^ s := by
      rw [hpow, Nat.mul_comm (2 ^ s), ← Nat.mul_assoc, Nat.mul_comm 128]
    have hxs : x * 2 ^ s = (128 * (x / 128)) * 2 ^ s + (x % 128) * 2 ^ s := by
      rw [← Nat.add_mul, hdm]
    have h128 : 128 * 2 ^ s ≤ x * 2 ^ s := Nat.mul_le_mul_right _ (by omega)
    have hs7 : s + 7 < w := by
      apply (Nat.pow_lt_pow_iff_right (show 1 < 2 by decide)).1
      omega
    have e127 : (x % 128 + 128) &&& 127 = x % 128 := by
      rw [and127]; omega
    rw [decodeLoop, if_neg (by omega), if_neg (highByte_cont (by omega) (by omega)), e127,
      Nat.mod_eq_of_lt (by rw [Nat.shiftLeft_eq]; omega), or_add _ hv, ih]
    · congr 1; congr 1; omega
    · exact hs7
    · have : (x % 128 + 1) * 2 ^ s ≤ 128 * 2 ^ s := Nat.mul_le_mul_right _ (by omega)
      rw [Nat.add_mul] at this
      omega
    · omega

theorem varintDecode_encode {w x : Nat} (hw : 0 < w) (hx : x < 2 ^ w) (rest : List Nat) :
    varintDecode w (varintEncode x ++ rest) = some (x, rest) := by
  have := decodeLoop_encode w x 0 0 rest hw (by simp) (by simpa using hx)
  simpa [varintDecode] using this

theorem markedEncode_decode {w x : Nat} (hw : 6 < w) (hx : x < 2 ^ w) (m : Bool) (rest : List Nat) :
    markedDecode w (markedEncode x m ++ rest) = some ((x, m), rest) := by
  have hfirst : ∀ c : Bool, ((x &&& 63) ||| (if m then 64 else 0)) ||| (if c then 128 else 0) =
      x % 64 + (if m then 64 else 0) + (if c then 128 else 0) := by
    intro c
    have h64 : x % 64 < 64 := Nat.mod_lt _ (by decide)
    rw [and63]
    have e1 : ∀ y, y < 64 → y ||| 64 = y + 64 := by
      intro y hy; have := or_add (a := y) (k := 6) 1 hy; simpa using this
    have e2 : ∀ y, y < 128 → y ||| 128 = y + 128 := by
      intro y hy; have := or_add (a := y) (k := 7) 1 hy; simpa using this
    cases m <;> cases c <;> simp [e1 _ h64] <;> rw [e2 _ (by omega)]
  have hbits : ∀ y, y < 64 → ∀ m c : Bool,
      ((y + (if m then 64 else 0) + (if c then 128 else 0)) &&& 63 = y) ∧
      ((y + (if m then 64 else 0) + (if c then 128 else 0)) &&& 64 ≠ 0 ↔ m = true) ∧
      ((y + (if m then 64 else 0) + (if c then 128 else 0)) &&& 128 ≠ 0 ↔ c = true) := by
    decide +revert
  have h64 : x % 64 < 64 := Nat.mod_lt _ (by decide)
  have hsh : x >>> 6 = x / 64 := by rw [Nat.shiftRight_eq_div_pow]
  unfold markedEncode
  simp only [hsh]
  by_cases h0 : x / 64 = 0
  · rw [if_pos h0]
    obtain ⟨b1, b2, b3⟩ := hbits _ h64 m false
    have hf := hfirst false
    simp only [Bool.false_eq_true, if_false, Nat.or_zero, Nat.add_zero] at hf b1 b2 b3
    simp only [List.singleton_append, hf, markedDecode]
    rw [if_neg (fun h => by simp at b3; exact h b3), b1]
    have : decide (x % 64 + (if m then 64 else 0) &&& 64 ≠ 0) = m :=
      Bool.eq_iff_iff.2 (decide_eq_true_iff.trans b2)
    rw [this]
    congr 3; omega
  · rw [if_neg h0]
    obtain ⟨b1, b2, b3⟩ := hbits _ h64 m true
    have hf := hfirst true
    simp only [if_true] at hf b1 b2 b3
    simp only [List.cons_append, hf, markedDecode]
    rw [if_pos (b3.2 trivial), b1]
    have hd : decide (x % 64 + (if m then 64 else 0) + 128 &&& 64 ≠ 0) = m :=
      Bool.eq_iff_iff.2 (decide_eq_true_iff.trans b2)
    rw [hd, decodeLoop_encode w (x / 64) 6 (x % 64) rest hw h64 (by omega)]
    simp only [Option.map_some]
    congr 3; omega

theorem length_markedEncode (x : Nat) (m : Bool) : (markedEncode x m).length = markedLength x := by
  unfold markedEncode markedLength
  simp only
  generalize x >>> 6 = y
  by_cases h : y = 0
  · subst h; rfl
  · rw [if_neg h, if_pos (show y > 0 by omega)]; simp [length_varintEncode]; omega

theorem markedEncode_bytes (x : Nat) (m : Bool) : ∀ b ∈ markedEncode x m, b < 256 := by
  have e : ∀ y, y < 64 → ∀ m : Bool, (y ||| (if m then 64 else 0)) < 256 ∧
    (y ||| (if m then 64 else 0) ||| 128) < 256 := by decide +revert
  have h64 : x % 64 < 64 := Nat.mod_lt _ (by decide)
  intro b hb
  unfold markedEncode at hb
  simp only [and63] at hb
  split at hb
  · simp only [List.mem_singleton] at hb
    subst hb; exact (e _ h64 m).1
  · rcases List.mem_cons.1 hb with rfl | hb
    · exact (e _ h64 m).2
    · exact varintEncode_bytes _ b hb

/-! ### Zigzag -/

theorem neg_and_one {w : Nat} (x : BitVec w) :
    -(x &&& 1#w) = if x.getLsbD 0 then BitVec.allOnes w else 0#w := by
  cases w with
  | zero => exact BitVec.eq_of_zero_length rfl
  | succ w =>
    have h : x &&& 1#(w + 1) = if x.getLsbD 0 then 1#(w + 1) else 0#(w + 1) := by
      apply BitVec.eq_of_getLsbD_eq
      intro i hi
      rw [BitVec.getLsbD_and]
      by_cases h0 : i = 0
      · subst h0
        cases x.getLsbD 0 <;> simp
      · cases x.getLsbD 0 <;> simp [h0]
    rw [h]
    split
    · exact BitVec.neg_one_eq_allOnes
    · simp

theorem zigzag_roundtrip {w : Nat} (x : BitVec w) : zigzagDecode (zigzagEncode x) = x := by
  unfold zigzagDecode
  rw [neg_and_one]
  cases w with
  | zero => exact BitVec.eq_of_zero_length rfl
  | succ w =>
    have enc : ∀ i, (zigzagEncode x).getLsbD i =
        (decide (i < w + 1) && (x.msb ^^ (decide (0 < i) && x.getLsbD (i - 1)))) := by
      intro i
      unfold zigzagEncode
      rw [BitVec.getLsbD_xor, BitVec.getLsbD_sshiftRight, BitVec.getLsbD_shiftLeft]
      by_cases hi : i < w + 1
      · simp only [hi, decide_true, Bool.true_and]
        have h1 : ¬ (w + 1 ≤ i) := by omega
        simp only [h1, decide_false, Bool.not_false, Bool.true_and]
        have hm : x.msb = x.getLsbD w := by rw [BitVec.msb_eq_getLsbD_last]; rfl
        by_cases h0 : i = 0
        · subst h0; simp [hm]
        · have h2 : ¬ (w + 1 - 1 + i < w + 1) := by omega
          simp [h0, show 0 < i by omega]
      · simp [hi]; try omega
    apply BitVec.eq_of_getLsbD_eq
    intro i hi
    rw [BitVec.getLsbD_xor, BitVec.getLsbD_ushiftRight, enc (1 + i), enc 0]
    simp only [Nat.zero_lt_succ, decide_true, Bool.true_and, Nat.lt_irrefl, decide_false,
      Bool.false_and, Bool.xor_false]
    have hall : (if x.msb = true then BitVec.allOnes (w + 1) else 0#(w + 1)).getLsbD i = x.msb := by
      cases x.msb <;> simp [hi]
    rw [hall]
    by_cases h : 1 + i < w + 1
    · simp only [h, decide_true, Bool.true_and, show 0 < 1 + i by omega,
        show 1 + i - 1 = i by omega]
      cases x.msb <;> cases x.getLsbD i <;> rfl
    · have : i = w := by omega
      subst this
      simp only [h, decide_false, Bool.false_and, Bool.false_xor]
      rw [BitVec.msb_eq_getLsbD_last]; rfl

theorem signedDecode_encode {w : Nat} {x : Int} (hw : 0 < w) (h1 : -(2 ^ (w - 1) : Int) ≤ x)
    (h2 : x < (2 ^ (w - 1) : Int)) (rest : List Nat) :
    signedDecode w (signedEncode w x ++ rest) = some (x, rest) := by
  unfold signedDecode signedEncode
  rw [varintDecode_encode hw (BitVec.isLt _)]
  simp only [Option.map_some, BitVec.ofNat_toNat, BitVec.setWidth_eq, zigzag_roundtrip]
  rw [BitVec.toInt_ofInt_eq_self hw h1 h2]

theorem length_signedEncode (w : Nat) (x : Int) : (signedEncode w x).length = signedLength w x :=
  length_varintEncode _

theorem signedEncode_bytes (w : Nat) (x : Int) : ∀ b ∈ signedEncode w x, b < 256 :=
  varintEncode_bytes _

end Verif.Varint
