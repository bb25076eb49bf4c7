import Verif.StreamVByte.Model

namespace Verif.StreamVByte

open Verif.Math (subW)
open Verif.Varint (loadLE)

theorem leBytes_small {v : Nat} (h : v < 256) : leBytes v = [v] := by
  rw [leBytes, if_neg (by omega), Nat.mod_eq_of_lt h]

theorem leBytes_big {v : Nat} (h : 256 ≤ v) : leBytes v = (v % 256) :: leBytes (v / 256) := by
  rw [leBytes, if_pos (by omega)]

theorem byteInduction {P : Nat → Prop} (hs : ∀ i, i < 256 → P i)
    (hb : ∀ i, 256 ≤ i → P (i / 256) → P i) (i : Nat) : P i := by
  induction i using Nat.strongRecOn with
  | ind i ih =>
    by_cases h : i < 256
    · exact hs i h
    · exact hb i (by omega) (ih _ (by omega))

theorem byteWidth_small {v : Nat} (h : v < 256) : byteWidth v = 1 := by
  unfold byteWidth
  split
  · rfl
  · rename_i h0
    have : v.log2 < 8 := by
      rw [Nat.log2_lt h0]; exact h
    split <;> omega

theorem log2_div256 {v : Nat} (h : 256 ≤ v) : v.log2 = (v / 256).log2 + 8 := by
  have e : ∀ x, 2 ≤ x → x.log2 = (x / 2).log2 + 1 := by
    intro x hx; rw [Nat.log2_def, if_pos hx]
  rw [e v (by omega), e (v / 2) (by omega), e (v / 2 / 2) (by omega), e (v / 2 / 2 / 2) (by omega),
    e (v / 2 / 2 / 2 / 2) (by omega), e (v / 2 / 2 / 2 / 2 / 2) (by omega),
    e (v / 2 / 2 / 2 / 2 / 2 / 2) (by omega), e (v / 2 / 2 / 2 / 2 / 2 / 2 / 2) (by omega)]
  rw [show v / 2 / 2 / 2 / 2 / 2 / 2 / 2 / 2 = v / 256 by omega]

theorem byteWidth_big {v : Nat} (h : 256 ≤ v) : byteWidth v = byteWidth (v / 256) + 1 := by
  unfold byteWidth
  rw [if_neg (show ¬ v = 0 by omega), if_neg (show ¬ v / 256 = 0 by omega), log2_div256 h]
  generalize (v / 256).log2 = t
  have h1 : (t + 8 + 1) % 8 = (t + 1) % 8 := by omega
  have h2 : (t + 8 + 1) / 8 = (t + 1) / 8 + 1 := by omega
  rw [h1, h2]; omega

theorem length_leBytes (v : Nat) : (leBytes v).length = byteWidth v := by
  induction v using byteInduction with
  | hs v h => rw [leBytes_small h, byteWidth_small h]; rfl
  | hb v h ih => rw [leBytes_big h, byteWidth_big h]; simp [ih]

theorem byteWidth_pos (v : Nat) : 1 ≤ byteWidth v := by
  induction v using byteInduction with
  | hs v h => rw [byteWidth_small h]; omega
  | hb v h ih => rw [byteWidth_big h]; omega

theorem byteWidth_le {v : Nat} : ∀ {k}, 0 < k → v < 256 ^ k → byteWidth v ≤ k := by
  induction v using byteInduction with
  | hs v h => intro k hk _; rw [byteWidth_small h]; omega
  | hb v h ih =>
    intro k hk hv
    obtain ⟨k, rfl⟩ : ∃ j, k = j + 1 := ⟨k - 1, by omega⟩
    have h0 : 0 < k := by
      rcases Nat.eq_zero_or_pos k with h0 | h0
      · subst h0; simp at hv; omega
      · exact h0
    have := ih h0 (by rw [Nat.div_lt_iff_lt_mul (by decide), ← Nat.pow_succ]; exact hv)
    rw [byteWidth_big h]; omega

theorem loadLE_leBytes (v n : Nat) : loadLE (leBytes v ++ List.replicate n 0) = v := by
  have hz : ∀ n, loadLE (List.replicate n 0) = 0 := by
    intro n
    induction n with
    | zero => rfl
    | succ n ih => simp [List.replicate_succ, loadLE, ih]
  induction v using byteInduction with
  | hs v h => rw [leBytes_small h]; simp [loadLE, hz]
  | hb v h ih => rw [leBytes_big h]; simp [loadLE, ih]; omega

theorem bytes_leBytes (v : Nat) : ∀ b ∈ leBytes v, b < 256 := by
  induction v using byteInduction with
  | hs v h => rw [leBytes_small h]; simpa using h
  | hb v h ih =>
    rw [leBytes_big h]
    intro b hb
    rcases List.mem_cons.1 hb with rfl | hb
    · omega
    · exact ih b hb

/-- The control byte of four widths. -/
def ctrlOf (w0 w1 w2 w3 : Nat) : Nat := (w3 <<< 6) ||| (w2 <<< 4) ||| (w1 <<< 2) ||| w0

theorem lengths_ctrlOf_fin : ∀ w0 w1 w2 w3 : Fin 4, lengths (ctrlOf w0 w1 w2 w3) =
    [w0.val + 1, w1.val + 1, w2.val + 1, w3.val + 1] := by decide +kernel

theorem lengths_ctrlOf {w0 w1 w2 w3 : Nat} (h0 : w0 < 4) (h1 : w1 < 4) (h2 : w2 < 4) (h3 : w3 < 4) :
    lengths (ctrlOf w0 w1 w2 w3) = [w0 + 1, w1 + 1, w2 + 1, w3 + 1] :=
  lengths_ctrlOf_fin ⟨w0, h0⟩ ⟨w1, h1⟩ ⟨w2, h2⟩ ⟨w3, h3⟩

/-- The shuffle entries of one value. -/
def laneEntries (W byte l : Nat) : List Nat :=
  (List.range l).map (byte + ·) ++ List.replicate (W - l) 255

theorem length_laneEntries {W byte l : Nat} (h : l ≤ W) : (laneEntries W byte l).length = W := by
  simp [laneEntries]; omega

theorem shuffle_lane (W : Nat) (pre suf : List Nat) (v : Nat)
    (hb : pre.length + (leBytes v).length ≤ 16) :
    shuffleBytes ((pre ++ leBytes v ++ suf).take 16) (laneEntries W pre.length (leBytes v).length) =
      leBytes v ++ List.replicate (W - (leBytes v).length) 0 := by
  unfold shuffleBytes laneEntries
  rw [List.map_append, List.map_map, List.map_replicate]
  congr 1
  apply List.ext_getElem
  · simp
  · intro i h1 h2
    have hi : i < (leBytes v).length := by simpa using h1
    simp only [List.getElem_map, List.getElem_range, Function.comp]
    rw [if_neg (by omega), Nat.mod_eq_of_lt (by omega), List.getElem?_take, if_pos (by omega),
      List.append_assoc, List.getElem?_append_right (by omega),
      List.getElem?_append_left (by omega), show pre.length + i - pre.length = i by omega,
      List.getElem?_eq_getElem hi]
    rfl

theorem loadLE_lane (W : Nat) (pre suf : List Nat) (v : Nat)
    (hb : pre.length + (leBytes v).length ≤ 16) :
    loadLE (shuffleBytes ((pre ++ leBytes v ++ suf).take 16)
      (laneEntries W pre.length (leBytes v).length)) = v := by
  rw [shuffle_lane W pre suf v hb, loadLE_leBytes]

theorem length_shuffleBytes (d m : List Nat) : (shuffleBytes d m).length = m.length := by
  simp [shuffleBytes]

theorem toLanes_append {a b c d : List Nat} (ha : a.length = 4) (hb : b.length = 4)
    (hc : c.length = 4) (hd : d.length = 4) :
    toLanes (a ++ (b ++ (c ++ (d ++ [])))) = ⟨loadLE a, loadLE b, loadLE c, loadLE d⟩ := by
  unfold toLanes
  have t : ∀ (x y : List Nat), x.length = 4 → (x ++ y).take 4 = x := by
    intro x y h; rw [← h, List.take_left]
  have dr : ∀ (x y : List Nat) n, x.length = 4 → (x ++ y).drop (4 + n) = y.drop n := by
    intro x y n h; rw [← h, List.drop_append]; simp
  rw [show (8 : Nat) = 4 + (4 + 0) from rfl, show (12 : Nat) = 4 + (4 + (4 + 0)) from rfl, t _ _ ha,
    dr _ _ _ ha, dr _ _ _ ha, dr _ _ _ hb, dr _ _ _ hb, dr _ _ _ hc]
  rw [show (4 : Nat) = 4 + 0 from rfl, dr _ _ _ ha]
  simp only [List.drop_zero, Nat.add_zero]
  rw [t _ _ hb, t _ _ hc, t _ _ hd]

/-- The four lanes before gap decoding, lane by lane. -/
theorem lanes_eq {w0 w1 w2 w3 : Nat} (h0 : w0 < 4) (h1 : w1 < 4) (h2 : w2 < 4) (h3 : w3 < 4)
    (d : List Nat) :
    toLanes (shuffleBytes d (shuffleEntries 4 0 (lengths (ctrlOf w0 w1 w2 w3)))) =
      ⟨loadLE (shuffleBytes d (laneEntries 4 0 (w0 + 1))),
       loadLE (shuffleBytes d (laneEntries 4 (w0 + 1) (w1 + 1))),
       loadLE (shuffleBytes d (laneEntries 4 (w0 + 1 + (w1 + 1)) (w2 + 1))),
       loadLE (shuffleBytes d (laneEntries 4 (w0 + 1 + (w1 + 1) + (w2 + 1)) (w3 + 1)))⟩ := by
  rw [lengths_ctrlOf h0 h1 h2 h3]
  rw [← toLanes_append]
  · simp [shuffleEntries, shuffleBytes, laneEntries]
  all_goals (rw [length_shuffleBytes, length_laneEntries (by omega)])

theorem lengthTable_ctrlOf {w0 w1 w2 w3 : Nat} (h0 : w0 < 4) (h1 : w1 < 4) (h2 : w2 < 4)
    (h3 : w3 < 4) : lengthTable (ctrlOf w0 w1 w2 w3) = w0 + 1 + (w1 + 1) + (w2 + 1) + (w3 + 1) := by
  unfold lengthTable; rw [lengths_ctrlOf h0 h1 h2 h3]; simp [List.sum_cons]; omega

theorem encodedWidth_lt {v : Nat} (h : v < 2 ^ 32) : encodedWidth v < 4 := by
  have := byteWidth_le (v := v) (k := 4) (by decide) (by simpa using h)
  have := byteWidth_pos v
  unfold encodedWidth; omega

theorem encodedWidth_succ (v : Nat) : encodedWidth v + 1 = (leBytes v).length := by
  rw [length_leBytes]; have := byteWidth_pos v; unfold encodedWidth; omega

theorem encodedWidth_zero : encodedWidth 0 = 0 := by simp [encodedWidth, byteWidth]

/-- control byte of a (padded) group of values -/
def groupCtrl (v0 v1 v2 v3 : Nat) : Nat :=
  ctrlOf (encodedWidth v0) (encodedWidth v1) (encodedWidth v2) (encodedWidth v3)

theorem load16_eq {p : List Nat} (h : 16 ≤ p.length) : load16? p = some (p.take 16) := by
  rw [load16?, if_pos h]

theorem group4 (k : Kind) (prev : Lanes) {v0 v1 v2 v3 : Nat} (h0 : v0 < 2 ^ 32) (h1 : v1 < 2 ^ 32)
    (h2 : v2 < 2 ^ 32) (h3 : v3 < 2 ^ 32) (suf : List Nat) (hs : 15 ≤ suf.length) :
    decodeGroup? k prev (groupCtrl v0 v1 v2 v3)
      (leBytes v0 ++ leBytes v1 ++ leBytes v2 ++ leBytes v3 ++ suf) =
      some (decodeGaps k prev ⟨v0, v1, v2, v3⟩) := by
  have e0 := encodedWidth_lt h0
  have e1 := encodedWidth_lt h1
  have e2 := encodedWidth_lt h2
  have e3 := encodedWidth_lt h3
  have s0 := encodedWidth_succ v0
  have s1 := encodedWidth_succ v1
  have s2 := encodedWidth_succ v2
  have s3 := encodedWidth_succ v3
  unfold decodeGroup? groupCtrl
  rw [load16_eq (by simp; omega), Option.map_some, lanes_eq e0 e1 e2 e3, s0, s1, s2, s3]
  have l0 := loadLE_lane 4 [] (leBytes v1 ++ leBytes v2 ++ leBytes v3 ++ suf) v0
    (by simp; omega)
  have l1 := loadLE_lane 4 (leBytes v0) (leBytes v2 ++ leBytes v3 ++ suf) v1 (by omega)
  have l2 := loadLE_lane 4 (leBytes v0 ++ leBytes v1) (leBytes v3 ++ suf) v2 (by simp; omega)
  have l3 := loadLE_lane 4 (leBytes v0 ++ leBytes v1 ++ leBytes v2) suf v3 (by simp; omega)
  simp only [List.append_assoc, List.nil_append, List.length_append, List.length_nil,
    ← Nat.add_assoc] at l0 l1 l2 l3 ⊢
  rw [l0, l1, l2, l3]

theorem group3 (k : Kind) (prev : Lanes) {v0 v1 v2 : Nat} (h0 : v0 < 2 ^ 32) (h1 : v1 < 2 ^ 32)
    (h2 : v2 < 2 ^ 32) (suf : List Nat) (hs : 15 ≤ suf.length) :
    ∃ y3, decodeGroup? k prev (groupCtrl v0 v1 v2 0)
      (leBytes v0 ++ leBytes v1 ++ leBytes v2 ++ suf) =
      some (decodeGaps k prev ⟨v0, v1, v2, y3⟩) := by
  have e0 := encodedWidth_lt h0
  have e1 := encodedWidth_lt h1
  have e2 := encodedWidth_lt h2
  have e3 := encodedWidth_lt (v := 0) (by decide)
  have s0 := encodedWidth_succ v0
  have s1 := encodedWidth_succ v1
  have s2 := encodedWidth_succ v2
  have s3 := encodedWidth_succ 0
  unfold decodeGroup? groupCtrl
  rw [load16_eq (by simp; omega), Option.map_some, lanes_eq e0 e1 e2 e3, s0, s1, s2]
  have l0 := loadLE_lane 4 [] (leBytes v1 ++ leBytes v2 ++ suf) v0 (by simp; omega)
  have l1 := loadLE_lane 4 (leBytes v0) (leBytes v2 ++ suf) v1 (by omega)
  have l2 := loadLE_lane 4 (leBytes v0 ++ leBytes v1) suf v2 (by simp; omega)
  simp only [List.append_assoc, List.nil_append, List.length_append, List.length_nil] at l0 l1 l2 ⊢
  rw [l0, l1, l2]
  exact ⟨_, rfl⟩

theorem group2 (k : Kind) (prev : Lanes) {v0 v1 : Nat} (h0 : v0 < 2 ^ 32) (h1 : v1 < 2 ^ 32)
    (suf : List Nat) (hs : 15 ≤ suf.length) :
    ∃ y2 y3, decodeGroup? k prev (groupCtrl v0 v1 0 0) (leBytes v0 ++ leBytes v1 ++ suf) =
      some (decodeGaps k prev ⟨v0, v1, y2, y3⟩) := by
  have e0 := encodedWidth_lt h0
  have e1 := encodedWidth_lt h1
  have e3 := encodedWidth_lt (v := 0) (by decide)
  have s0 := encodedWidth_succ v0
  have s1 := encodedWidth_succ v1
  unfold decodeGroup? groupCtrl
  rw [load16_eq (by simp; omega), Option.map_some, lanes_eq e0 e1 e3 e3, s0, s1]
  have l0 := loadLE_lane 4 [] (leBytes v1 ++ suf) v0 (by simp; omega)
  have l1 := loadLE_lane 4 (leBytes v0) suf v1 (by omega)
  simp only [List.append_assoc, List.nil_append, List.length_nil] at l0 l1 ⊢
  rw [l0, l1]
  exact ⟨_, _, rfl⟩

theorem group1 (k : Kind) (prev : Lanes) {v0 : Nat} (h0 : v0 < 2 ^ 32)
    (suf : List Nat) (hs : 15 ≤ suf.length) :
    ∃ y1 y2 y3, decodeGroup? k prev (groupCtrl v0 0 0 0) (leBytes v0 ++ suf) =
      some (decodeGaps k prev ⟨v0, y1, y2, y3⟩) := by
  have e0 := encodedWidth_lt h0
  have e3 := encodedWidth_lt (v := 0) (by decide)
  have s0 := encodedWidth_succ v0
  unfold decodeGroup? groupCtrl
  rw [load16_eq (by simp; omega), Option.map_some, lanes_eq e0 e3 e3 e3, s0]
  have l0 := loadLE_lane 4 [] suf v0 (by simp; omega)
  simp only [List.nil_append, List.length_nil] at l0 ⊢
  rw [l0]
  exact ⟨_, _, _, rfl⟩

/-- Relation between the encoder's history and the decoder's `prev` register. -/
def Rel (k : Kind) (s : Enc) (p : Lanes) : Prop :=
  s.prev < 2 ^ 32 ∧ s.prev2 < 2 ^ 32 ∧ s.prev3 < 2 ^ 32 ∧ s.prev4 < 2 ^ 32 ∧ s.prevMax < 2 ^ 32 ∧
  match k with
  | .NONE => True
  | .D1 => p.l3 = s.prev
  | .D2 => p.l2 = s.prev2 ∧ p.l3 = s.prev
  | .DM => p.l3 = s.prevMax
  | .D4 => p.l0 = s.prev4 ∧ p.l1 = s.prev3 ∧ p.l2 = s.prev2 ∧ p.l3 = s.prev

theorem subW_lt (a b : Nat) : subW 32 a b < 2 ^ 32 := Nat.mod_lt _ (by decide)

/-- linear form of the wrapped difference -/
theorem subW_lin {a b : Nat} (ha : a < 2 ^ 32) (hb : b < 2 ^ 32) :
    ∃ c, subW 32 a b + b = a + 2 ^ 32 * c := by
  unfold subW
  by_cases h : b ≤ a
  · exact ⟨0, by omega⟩
  · exact ⟨1, by omega⟩

theorem gap_lt {k : Kind} {s : Enc} {x : Nat} (hx : x < 2 ^ 32) : (s.gap k x).1 < 2 ^ 32 := by
  cases k <;> simp only [Enc.gap] <;> first | exact hx | exact subW_lt _ _

/-- The stored values of four successive `add`s, with the state in between. -/
def g4 (k : Kind) (s : Enc) (x0 x1 x2 x3 : Nat) : (Nat × Nat × Nat × Nat) × Enc :=
  let a := s.gap k x0
  let b := a.2.gap k x1
  let c := b.2.gap k x2
  let d := c.2.gap k x3
  ((a.1, b.1, c.1, d.1), d.2)

theorem decodeGaps_four (k : Kind) (s : Enc) (p : Lanes) (h : Rel k s p) {x0 x1 x2 x3 : Nat}
    (h0 : x0 < 2 ^ 32) (h1 : x1 < 2 ^ 32) (h2 : x2 < 2 ^ 32) (h3 : x3 < 2 ^ 32) :
    decodeGaps k p ⟨(s.gap k x0).1, ((s.gap k x0).2.gap k x1).1,
      (((s.gap k x0).2.gap k x1).2.gap k x2).1,
      ((((s.gap k x0).2.gap k x1).2.gap k x2).2.gap k x3).1⟩ = ⟨x0, x1, x2, x3⟩ := by
  obtain ⟨b1, b2, b3, b4, b5, hr⟩ := h
  cases k
  · rfl
  · simp only at hr
    simp only [decodeGaps, Enc.gap, Lanes.add, Lanes.slli8, Lanes.slli4, hr, Lanes.mk.injEq,
      Nat.mod_add_mod, Nat.add_mod_mod]
    obtain ⟨c0, k0⟩ := subW_lin h0 b1
    obtain ⟨c1, k1⟩ := subW_lin h1 h0
    obtain ⟨c2, k2⟩ := subW_lin h2 h1
    obtain ⟨c3, k3⟩ := subW_lin h3 h2
    refine ⟨?_, ?_, ?_, ?_⟩ <;> omega
  · simp only at hr
    simp only [decodeGaps, Enc.gap, Lanes.add, Lanes.slli8, hr, Lanes.mk.injEq, Nat.mod_add_mod]
    obtain ⟨c0, k0⟩ := subW_lin h0 b2
    obtain ⟨c1, k1⟩ := subW_lin h1 b1
    obtain ⟨c2, k2⟩ := subW_lin h2 h0
    obtain ⟨c3, k3⟩ := subW_lin h3 h1
    refine ⟨?_, ?_, ?_, ?_⟩ <;> omega
  · simp only at hr
    simp only [decodeGaps, Enc.gap, Lanes.add, hr, Lanes.mk.injEq]
    obtain ⟨c0, k0⟩ := subW_lin h0 b5
    obtain ⟨c1, k1⟩ := subW_lin h1 b5
    obtain ⟨c2, k2⟩ := subW_lin h2 b5
    obtain ⟨c3, k3⟩ := subW_lin h3 b5
    refine ⟨?_, ?_, ?_, ?_⟩ <;> omega
  · simp only at hr
    simp only [decodeGaps, Enc.gap, Lanes.add, hr, Lanes.mk.injEq]
    obtain ⟨c0, k0⟩ := subW_lin h0 b4
    obtain ⟨c1, k1⟩ := subW_lin h1 b3
    obtain ⟨c2, k2⟩ := subW_lin h2 b2
    obtain ⟨c3, k3⟩ := subW_lin h3 b1
    refine ⟨?_, ?_, ?_, ?_⟩ <;> omega

/-- The first lanes do not depend on the later (garbage) lanes. -/
theorem decodeGaps_take (k : Kind) (p : Lanes) (d0 d1 d2 d3 e1 e2 e3 : Nat) :
    (decodeGaps k p ⟨d0, e1, e2, e3⟩).l0 = (decodeGaps k p ⟨d0, d1, d2, d3⟩).l0 ∧
    (decodeGaps k p ⟨d0, d1, e2, e3⟩).l1 = (decodeGaps k p ⟨d0, d1, d2, d3⟩).l1 ∧
    (decodeGaps k p ⟨d0, d1, d2, e3⟩).l2 = (decodeGaps k p ⟨d0, d1, d2, d3⟩).l2 := by
  cases k <;> exact ⟨rfl, rfl, rfl⟩

@[simp] theorem gap_buf (k : Kind) (s : Enc) (x : Nat) : (s.gap k x).2.buf = s.buf := by
  cases k <;> rfl
@[simp] theorem gap_ctrl (k : Kind) (s : Enc) (x : Nat) : (s.gap k x).2.ctrl = s.ctrl := by
  cases k <;> rfl
@[simp] theorem gap_data (k : Kind) (s : Enc) (x : Nat) : (s.gap k x).2.data = s.data := by
  cases k <;> rfl

/-- the gap value does not depend on the buffer fields -/
theorem gap_fst_congr (k : Kind) (s t : Enc) (x : Nat) (h : s.prev = t.prev ∧ s.prev2 = t.prev2 ∧
    s.prev3 = t.prev3 ∧ s.prev4 = t.prev4 ∧ s.prevMax = t.prevMax) :
    (s.gap k x).1 = (t.gap k x).1 := by
  obtain ⟨a, b, c, d, e⟩ := h
  cases k <;> simp [Enc.gap, *]

theorem add_lt3 (k : Kind) (s : Enc) (x : Nat) (h : s.buf.length < 3) :
    (s.add k x).1 = { (s.gap k x).2 with buf := s.buf ++ [(s.gap k x).1] } := by
  unfold Enc.add
  simp only
  rw [if_neg (by omega)]

theorem add_eq3 (k : Kind) (s : Enc) (x : Nat) (h : s.buf.length = 3) :
    (s.add k x).1 = Enc.flushBuf (if k = .DM then
      { (s.gap k x).2 with
        buf := s.buf ++ [(s.gap k x).1]
        prevMax := (s.gap k x).2.nextMax
        nextMax := 0 }
      else { (s.gap k x).2 with buf := s.buf ++ [(s.gap k x).1] }) := by
  unfold Enc.add
  simp only
  rw [if_pos h]

/-- gap with a buffer update -/
theorem gap_setBuf (k : Kind) (s : Enc) (x : Nat) (b : List Nat) :
    ({ s with buf := b }).gap k x = ((s.gap k x).1, { (s.gap k x).2 with buf := b }) := by
  cases k <;> rfl

/-- the value returned by `add` -/
theorem add_snd (k : Kind) (s : Enc) (x : Nat) :
    (s.add k x).2 = byteWidth (s.gap k x).1 + (if s.buf.length = 0 then 1 else 0) := by
  unfold Enc.add
  simp only
  split
  · rename_i h; simp [h]
  · rfl

def G1 (k : Kind) (s : Enc) (x0 : Nat) := s.gap k x0
def G2 (k : Kind) (s : Enc) (x0 x1 : Nat) := (s.gap k x0).2.gap k x1
def G3 (k : Kind) (s : Enc) (x0 x1 x2 : Nat) := (G2 k s x0 x1).2.gap k x2
def G4 (k : Kind) (s : Enc) (x0 x1 x2 x3 : Nat) := (G3 k s x0 x1 x2).2.gap k x3

theorem addAll_one (k : Kind) (s : Enc) (x0 : Nat) (hb : s.buf = []) :
    s.addAll k [x0] = { (G1 k s x0).2 with buf := [(G1 k s x0).1] } := by
  show (s.add k x0).1 = _
  rw [add_lt3 k s x0 (by simp [hb]), hb]; rfl

theorem addAll_two (k : Kind) (s : Enc) (x0 x1 : Nat) (hb : s.buf = []) :
    s.addAll k [x0, x1] =
      { (G2 k s x0 x1).2 with buf := [(G1 k s x0).1, (G2 k s x0 x1).1] } := by
  show ((s.addAll k [x0]).add k x1).1 = _
  rw [addAll_one k s x0 hb, add_lt3 _ _ _ (by simp), gap_setBuf]; rfl

theorem addAll_three (k : Kind) (s : Enc) (x0 x1 x2 : Nat) (hb : s.buf = []) :
    s.addAll k [x0, x1, x2] =
      { (G3 k s x0 x1 x2).2 with buf := [(G1 k s x0).1, (G2 k s x0 x1).1, (G3 k s x0 x1 x2).1] } := by
  show ((s.addAll k [x0, x1]).add k x2).1 = _
  rw [addAll_two k s x0 x1 hb, add_lt3 _ _ _ (by simp), gap_setBuf]; rfl

theorem addAll_four (k : Kind) (s : Enc) (x0 x1 x2 x3 : Nat) (hb : s.buf = []) :
    s.addAll k [x0, x1, x2, x3] = Enc.flushBuf (if k = .DM then
      { (G4 k s x0 x1 x2 x3).2 with
        buf := [(G1 k s x0).1, (G2 k s x0 x1).1, (G3 k s x0 x1 x2).1, (G4 k s x0 x1 x2 x3).1],
        prevMax := (G4 k s x0 x1 x2 x3).2.nextMax, nextMax := 0 }
      else { (G4 k s x0 x1 x2 x3).2 with
        buf := [(G1 k s x0).1, (G2 k s x0 x1).1, (G3 k s x0 x1 x2).1, (G4 k s x0 x1 x2 x3).1] }) := by
  show ((s.addAll k [x0, x1, x2]).add k x3).1 = _
  rw [addAll_three k s x0 x1 x2 hb, add_eq3 _ _ _ (by simp), gap_setBuf]; rfl

theorem flushBuf_ctrl4 (s : Enc) {v0 v1 v2 v3 : Nat} (h : s.buf = [v0, v1, v2, v3]) :
    s.flushBuf.ctrl = s.ctrl ++ [groupCtrl v0 v1 v2 v3] := by
  simp [Enc.flushBuf, Enc.bufAt, h, groupCtrl, ctrlOf]

theorem flushBuf_ctrl3 (s : Enc) {v0 v1 v2 : Nat} (h : s.buf = [v0, v1, v2]) :
    s.flushBuf.ctrl = s.ctrl ++ [groupCtrl v0 v1 v2 0] := by
  simp [Enc.flushBuf, Enc.bufAt, h, groupCtrl, ctrlOf]

theorem flushBuf_ctrl2 (s : Enc) {v0 v1 : Nat} (h : s.buf = [v0, v1]) :
    s.flushBuf.ctrl = s.ctrl ++ [groupCtrl v0 v1 0 0] := by
  simp [Enc.flushBuf, Enc.bufAt, h, groupCtrl, ctrlOf]

theorem flushBuf_ctrl1 (s : Enc) {v0 : Nat} (h : s.buf = [v0]) :
    s.flushBuf.ctrl = s.ctrl ++ [groupCtrl v0 0 0 0] := by
  simp [Enc.flushBuf, Enc.bufAt, h, groupCtrl, ctrlOf]

theorem addAll_append (k : Kind) (s : Enc) (a b : List Nat) :
    s.addAll k (a ++ b) = (s.addAll k a).addAll k b := by
  unfold Enc.addAll; rw [List.foldl_append]

theorem addAll_cons (k : Kind) (s : Enc) (a : Nat) (b : List Nat) :
    s.addAll k (a :: b) = (s.add k a).1.addAll k b := rfl

/-- Rel after four adds. -/
theorem rel_four (k : Kind) (s : Enc) (p : Lanes) (h : Rel k s p) {x0 x1 x2 x3 : Nat}
    (hb : s.buf = []) (h0 : x0 < 2 ^ 32) (h1 : x1 < 2 ^ 32) (h2 : x2 < 2 ^ 32) (h3 : x3 < 2 ^ 32)
    (hm : k = .DM → s.prevMax ≤ x3) :
    Rel k (s.addAll k [x0, x1, x2, x3]) ⟨x0, x1, x2, x3⟩ ∧
      (s.addAll k [x0, x1, x2, x3]).buf = [] ∧
      (k = .DM → (s.addAll k [x0, x1, x2, x3]).prevMax = x3) := by
  obtain ⟨b1, b2, b3, b4, b5, hr⟩ := h
  rw [addAll_four k s x0 x1 x2 x3 hb]
  refine ⟨?_, rfl, ?_⟩
  · cases k <;> simp_all [Rel, Enc.flushBuf, G4, G3, G2, Enc.gap] <;> omega
  · intro hk; subst hk
    have := hm rfl
    simp [Enc.flushBuf, G4, G3, G2, Enc.gap]; omega

/-- Main induction: encoder and decoder from any pair of related states. -/
theorem roundtrip_aux (k : Kind) : ∀ (n : Nat) (xs : List Nat), xs.length = n →
    ∀ (s : Enc) (p : Lanes), s.buf = [] → Rel k s p → (∀ x ∈ xs, x < 2 ^ 32) →
    (k = .DM → (∀ x ∈ xs, s.prevMax ≤ x) ∧ xs.Pairwise (· ≤ ·)) →
    ∃ C D, (s.addAll k xs).flush.ctrl = s.ctrl ++ C ∧ (s.addAll k xs).flush.data = s.data ++ D ∧
      C.length = n / 4 + (if n % 4 ≠ 0 then 1 else 0) ∧
      returnedBytes k s xs = C.length + D.length ∧
      (∀ b ∈ C ++ D, b < 256) ∧
      ∀ crest rest, 15 ≤ rest.length →
        decodeLoop? k (n % 4) (n / 4) p (C ++ crest) (D ++ rest) = some xs := by
  have hcb : ∀ {v0 v1 v2 v3 : Nat}, v0 < 2 ^ 32 → v1 < 2 ^ 32 → v2 < 2 ^ 32 → v3 < 2 ^ 32 →
      groupCtrl v0 v1 v2 v3 < 256 := by
    intro v0 v1 v2 v3 h0 h1 h2 h3
    have key : ∀ w0 w1 w2 w3 : Fin 4, ctrlOf w0 w1 w2 w3 < 256 := by decide +kernel
    exact key ⟨_, encodedWidth_lt h0⟩ ⟨_, encodedWidth_lt h1⟩ ⟨_, encodedWidth_lt h2⟩
      ⟨_, encodedWidth_lt h3⟩
  have h00 : (0 : Nat) < 2 ^ 32 := by decide
  intro n
  induction n using Nat.strongRecOn with
  | ind n ih =>
    intro xs hlen s p hb hr hx hdm
    match xs, hlen with
    | [], hlen =>
      have : n = 0 := by simpa using hlen.symm
      subst this
      refine ⟨[], [], ?_, ?_, rfl, rfl, by simp, ?_⟩
      · simp [Enc.addAll, Enc.flush, hb]
      · simp [Enc.addAll, Enc.flush, hb]
      · intro crest rest _; rfl
    | [x0], hlen =>
      have : n = 1 := by simpa using hlen.symm
      subst this
      have h0 : x0 < 2 ^ 32 := hx x0 (by simp)
      refine ⟨[groupCtrl (G1 k s x0).1 0 0 0], leBytes (G1 k s x0).1, ?_, ?_, rfl, ?_, ?_, ?_⟩
      · rw [addAll_one k s x0 hb, Enc.flush, if_pos (by simp), flushBuf_ctrl1 _ rfl]
        simp [G1]
      · rw [addAll_one k s x0 hb, Enc.flush, if_pos (by simp)]
        simp [Enc.flushBuf, G1]
      · simp [returnedBytes, Enc.add, hb, G1, length_leBytes]; omega
      · intro b hb'
        rcases List.mem_append.1 hb' with h | h
        · simp only [List.mem_singleton] at h; subst h
          exact hcb (gap_lt h0) h00 h00 h00
        · exact bytes_leBytes _ b h
      · intro crest rest hrest
        obtain ⟨y1, y2, y3, hg⟩ := group1 k p (gap_lt (k := k) (s := s) h0) rest hrest
        have t := decodeGaps_take k p (s.gap k x0).1 (G2 k s x0 0).1 (G3 k s x0 0 0).1
          (G4 k s x0 0 0 0).1 y1 y2 y3
        have f := decodeGaps_four k s p hr h0 h00 h00 h00
        show decodeTail? k 1 p _ _ = _
        simp only [decodeTail?, List.singleton_append, G1, hg, Option.map_some]
        have : (decodeGaps k p ⟨(s.gap k x0).1, y1, y2, y3⟩).l0 = x0 := by
          rw [t.1]; exact congrArg Lanes.l0 f
        simp [this]
    | [x0, x1], hlen =>
      have : n = 2 := by simpa using hlen.symm
      subst this
      have h0 : x0 < 2 ^ 32 := hx x0 (by simp)
      have h1 : x1 < 2 ^ 32 := hx x1 (by simp)
      refine ⟨[groupCtrl (G1 k s x0).1 (G2 k s x0 x1).1 0 0],
        leBytes (G1 k s x0).1 ++ leBytes (G2 k s x0 x1).1, ?_, ?_, rfl, ?_, ?_, ?_⟩
      · rw [addAll_two k s x0 x1 hb, Enc.flush, if_pos (by simp), flushBuf_ctrl2 _ rfl]
        simp [G2]
      · rw [addAll_two k s x0 x1 hb, Enc.flush, if_pos (by simp)]
        simp [Enc.flushBuf, G2]
      · have e1 := addAll_one k s x0 hb
        rw [show s.addAll k [x0] = (s.add k x0).1 from rfl] at e1
        simp only [returnedBytes, add_snd]
        rw [e1, gap_setBuf k (G1 k s x0).2 x1 _]
        simp [hb, length_leBytes, G1, G2]; omega
      · intro b hb'
        rcases List.mem_append.1 hb' with h | h
        · simp only [List.mem_singleton] at h; subst h
          exact hcb (gap_lt h0) (gap_lt h1) h00 h00
        · rcases List.mem_append.1 h with h | h
          · exact bytes_leBytes _ b h
          · exact bytes_leBytes _ b h
      · intro crest rest hrest
        obtain ⟨y2, y3, hg⟩ := group2 k p (gap_lt (k := k) (s := s) h0)
          (gap_lt (k := k) (s := (s.gap k x0).2) h1) rest hrest
        have t := decodeGaps_take k p (s.gap k x0).1 (G2 k s x0 x1).1 (G3 k s x0 x1 0).1
          (G4 k s x0 x1 0 0).1 (G2 k s x0 x1).1 y2 y3
        have f := decodeGaps_four k s p hr h0 h1 h00 h00
        show decodeTail? k 2 p _ _ = _
        simp only [decodeTail?, List.singleton_append, G1, G2, hg, Option.map_some]
        have e0 : (decodeGaps k p ⟨(s.gap k x0).1, ((s.gap k x0).2.gap k x1).1, y2, y3⟩).l0 = x0 :=
          t.1.trans (congrArg Lanes.l0 f)
        have e1 : (decodeGaps k p ⟨(s.gap k x0).1, ((s.gap k x0).2.gap k x1).1, y2, y3⟩).l1 = x1 :=
          t.2.1.trans (congrArg Lanes.l1 f)
        simp [e0, e1]
    | [x0, x1, x2], hlen =>
      have : n = 3 := by simpa using hlen.symm
      subst this
      have h0 : x0 < 2 ^ 32 := hx x0 (by simp)
      have h1 : x1 < 2 ^ 32 := hx x1 (by simp)
      have h2 : x2 < 2 ^ 32 := hx x2 (by simp)
      refine ⟨[groupCtrl (G1 k s x0).1 (G2 k s x0 x1).1 (G3 k s x0 x1 x2).1 0],
        leBytes (G1 k s x0).1 ++ leBytes (G2 k s x0 x1).1 ++ leBytes (G3 k s x0 x1 x2).1,
        ?_, ?_, rfl, ?_, ?_, ?_⟩
      · rw [addAll_three k s x0 x1 x2 hb, Enc.flush, if_pos (by simp), flushBuf_ctrl3 _ rfl]
        simp [G3, G2]
      · rw [addAll_three k s x0 x1 x2 hb, Enc.flush, if_pos (by simp)]
        simp [Enc.flushBuf, G3, G2]
      · have e1 := addAll_one k s x0 hb
        have e2 := addAll_two k s x0 x1 hb
        rw [show s.addAll k [x0] = (s.add k x0).1 from rfl] at e1
        rw [show s.addAll k [x0, x1] = ((s.add k x0).1.add k x1).1 from rfl] at e2
        simp only [returnedBytes, add_snd]
        rw [e2, e1, gap_setBuf k (G2 k s x0 x1).2 x2 _, gap_setBuf k (G1 k s x0).2 x1 _]
        simp [hb, length_leBytes, G1, G2, G3]; omega
      · intro b hb'
        rcases List.mem_append.1 hb' with h | h
        · simp only [List.mem_singleton] at h; subst h
          exact hcb (gap_lt h0) (gap_lt h1) (gap_lt h2) h00
        · rcases List.mem_append.1 h with h | h
          · rcases List.mem_append.1 h with h | h
            · exact bytes_leBytes _ b h
            · exact bytes_leBytes _ b h
          · exact bytes_leBytes _ b h
      · intro crest rest hrest
        obtain ⟨y3, hg⟩ := group3 k p (gap_lt (k := k) (s := s) h0)
          (gap_lt (k := k) (s := (s.gap k x0).2) h1)
          (gap_lt (k := k) (s := (G2 k s x0 x1).2) h2) rest hrest
        have t := decodeGaps_take k p (s.gap k x0).1 (G2 k s x0 x1).1 (G3 k s x0 x1 x2).1
          (G4 k s x0 x1 x2 0).1 (G2 k s x0 x1).1 (G3 k s x0 x1 x2).1 y3
        have f := decodeGaps_four k s p hr h0 h1 h2 h00
        show decodeTail? k 3 p _ _ = _
        simp only [decodeTail?, List.singleton_append, G1, G3, G2] at hg ⊢
        simp only [hg, Option.map_some]
        have e0 := t.1.trans (congrArg Lanes.l0 f)
        have e1 := t.2.1.trans (congrArg Lanes.l1 f)
        have e2 := t.2.2.trans (congrArg Lanes.l2 f)
        simp only [G2, G3] at e0 e1 e2
        simp [e0, e1, e2]
    | x0 :: x1 :: x2 :: x3 :: ys, hlen =>
      simp only [List.length_cons] at hlen
      have h0 : x0 < 2 ^ 32 := hx x0 (by simp)
      have h1 : x1 < 2 ^ 32 := hx x1 (by simp)
      have h2 : x2 < 2 ^ 32 := hx x2 (by simp)
      have h3 : x3 < 2 ^ 32 := hx x3 (by simp)
      have hm : k = .DM → s.prevMax ≤ x3 := fun hk => (hdm hk).1 x3 (by simp)
      obtain ⟨r1, r2, r3⟩ := rel_four k s p hr hb h0 h1 h2 h3 hm
      obtain ⟨C, D, c1, c2, c3, c4, c5, c6⟩ := ih (n - 4) (by omega) ys (by omega)
        (s.addAll k [x0, x1, x2, x3]) ⟨x0, x1, x2, x3⟩ r2 r1
        (fun x hxx => hx x (by simp [hxx])) (by
          intro hk
          obtain ⟨_, hs⟩ := hdm hk
          rw [r3 hk]
          simp only [List.pairwise_cons] at hs
          exact ⟨hs.2.2.2.1, hs.2.2.2.2⟩)
      have hap : s.addAll k (x0 :: x1 :: x2 :: x3 :: ys) =
          (s.addAll k [x0, x1, x2, x3]).addAll k ys := rfl
      have hctrl : (s.addAll k [x0, x1, x2, x3]).ctrl = s.ctrl ++
          [groupCtrl (G1 k s x0).1 (G2 k s x0 x1).1 (G3 k s x0 x1 x2).1 (G4 k s x0 x1 x2 x3).1] := by
        rw [addAll_four k s x0 x1 x2 x3 hb]
        split
        · rw [flushBuf_ctrl4 _ rfl]; simp [G4, G3, G2]
        · rw [flushBuf_ctrl4 _ rfl]; simp [G4, G3, G2]
      have hdata : (s.addAll k [x0, x1, x2, x3]).data = s.data ++
          (leBytes (G1 k s x0).1 ++ leBytes (G2 k s x0 x1).1 ++ leBytes (G3 k s x0 x1 x2).1 ++
            leBytes (G4 k s x0 x1 x2 x3).1) := by
        rw [addAll_four k s x0 x1 x2 x3 hb]
        split <;> simp [Enc.flushBuf, G4, G3, G2]
      refine ⟨[groupCtrl (G1 k s x0).1 (G2 k s x0 x1).1 (G3 k s x0 x1 x2).1
          (G4 k s x0 x1 x2 x3).1] ++ C,
        (leBytes (G1 k s x0).1 ++ leBytes (G2 k s x0 x1).1 ++ leBytes (G3 k s x0 x1 x2).1 ++
            leBytes (G4 k s x0 x1 x2 x3).1) ++ D, ?_, ?_, ?_, ?_, ?_, ?_⟩
      · rw [hap, c1, hctrl, List.append_assoc]
      · rw [hap, c2, hdata, List.append_assoc]
      · simp only [List.length_append, List.length_singleton, c3]
        rw [show n % 4 = (n - 4) % 4 by omega, show n / 4 = (n - 4) / 4 + 1 by omega]; omega
      · have e1 := addAll_one k s x0 hb
        have e2 := addAll_two k s x0 x1 hb
        have e3 := addAll_three k s x0 x1 x2 hb
        rw [show s.addAll k [x0] = (s.add k x0).1 from rfl] at e1
        rw [show s.addAll k [x0, x1] = ((s.add k x0).1.add k x1).1 from rfl] at e2
        rw [show s.addAll k [x0, x1, x2] = (((s.add k x0).1.add k x1).1.add k x2).1 from rfl] at e3
        rw [show s.addAll k [x0, x1, x2, x3] =
          ((((s.add k x0).1.add k x1).1.add k x2).1.add k x3).1 from rfl] at c4
        simp only [returnedBytes, c4, add_snd]
        rw [e3, e2, e1, gap_setBuf k (G3 k s x0 x1 x2).2 x3 _, gap_setBuf k (G2 k s x0 x1).2 x2 _, gap_setBuf k (G1 k s x0).2 x1 _]
        simp [hb, length_leBytes, G1, G2, G3, G4]; omega
      · intro b hb'
        have hcase : b ∈ C ++ D ∨ b = groupCtrl (G1 k s x0).1 (G2 k s x0 x1).1
            (G3 k s x0 x1 x2).1 (G4 k s x0 x1 x2 x3).1 ∨ b ∈ leBytes (G1 k s x0).1 ∨
            b ∈ leBytes (G2 k s x0 x1).1 ∨ b ∈ leBytes (G3 k s x0 x1 x2).1 ∨
            b ∈ leBytes (G4 k s x0 x1 x2 x3).1 := by
          simp only [List.mem_append, List.mem_singleton] at hb' ⊢
          grind
        rcases hcase with h | h | h | h | h | h
        · exact c5 b h
        · subst h; exact hcb (gap_lt h0) (gap_lt h1) (gap_lt h2) (gap_lt h3)
        all_goals exact bytes_leBytes _ b h
      · intro crest rest hrest
        have hg := group4 k p (gap_lt (k := k) (s := s) h0)
          (gap_lt (k := k) (s := (s.gap k x0).2) h1)
          (gap_lt (k := k) (s := (G2 k s x0 x1).2) h2)
          (gap_lt (k := k) (s := (G3 k s x0 x1 x2).2) h3) (D ++ rest) (by simp; omega)
        have f := decodeGaps_four k s p hr h0 h1 h2 h3
        rw [show n % 4 = (n - 4) % 4 by omega, show n / 4 = (n - 4) / 4 + 1 by omega]
        simp only [List.cons_append, decodeLoop?]
        have hg' : decodeGroup? k p (groupCtrl (G1 k s x0).1 (G2 k s x0 x1).1 (G3 k s x0 x1 x2).1
          (G4 k s x0 x1 x2 x3).1) (leBytes (G1 k s x0).1 ++ leBytes (G2 k s x0 x1).1 ++
            leBytes (G3 k s x0 x1 x2).1 ++ leBytes (G4 k s x0 x1 x2 x3).1 ++ (D ++ rest)) =
            some ⟨x0, x1, x2, x3⟩ := hg.trans (congrArg some f)
        rw [List.append_assoc, hg']
        have hl : lengthTable (groupCtrl (G1 k s x0).1 (G2 k s x0 x1).1 (G3 k s x0 x1 x2).1
          (G4 k s x0 x1 x2 x3).1) = (leBytes (G1 k s x0).1 ++ leBytes (G2 k s x0 x1).1 ++
            leBytes (G3 k s x0 x1 x2).1 ++ leBytes (G4 k s x0 x1 x2 x3).1).length := by
          unfold groupCtrl
          rw [lengthTable_ctrlOf (w0 := encodedWidth (G1 k s x0).1)
            (w1 := encodedWidth (G2 k s x0 x1).1) (w2 := encodedWidth (G3 k s x0 x1 x2).1)
            (w3 := encodedWidth (G4 k s x0 x1 x2 x3).1)
            (encodedWidth_lt (gap_lt h0)) (encodedWidth_lt (gap_lt h1))
            (encodedWidth_lt (gap_lt h2)) (encodedWidth_lt (gap_lt h3))]
          simp only [encodedWidth_succ, List.length_append]
        simp only [hl, List.drop_left, List.nil_append, c6 crest rest hrest]
        rfl

theorem pairUp_take_two (xs ys : List Nat) (h : xs.length % 2 = 0) :
    pairUp (xs ++ ys) = pairUp xs ++ pairUp ys := by
  match xs, h with
  | [], _ => rfl
  | [_], h => simp at h
  | a :: b :: xs, h =>
    simp only [List.cons_append, pairUp, List.cons_append]
    rw [pairUp_take_two xs ys (by simp only [List.length_cons] at h; omega)]

/-! ### 64 bit -/

/-- The values for which the 64 bit coder is correct. -/
def Fits64 (v : Nat) : Prop :=
  v < 2 ^ 64 ∧ (byteWidth v = 1 ∨ byteWidth v = 2 ∨ byteWidth v = 4 ∨ byteWidth v = 8)

theorem valueBytes64_eq (v : Nat) : valueBytes64 v = leBytes v := by
  simp [valueBytes64, requiredWidth64, byteWidth]

theorem encodedWidth64_lt (v : Nat) : encodedWidth64 v < 4 := by
  unfold encodedWidth64; split <;> (try split) <;> (try split) <;> omega

theorem actual_encoded {v : Nat} (h : Fits64 v) :
    actualLength64 (encodedWidth64 v) = (leBytes v).length := by
  rw [length_leBytes]
  rcases h.2 with h | h | h | h <;> simp [encodedWidth64, requiredWidth64, h, actualLength64]

theorem fits_zero : Fits64 0 := ⟨by decide, Or.inl (by simp [byteWidth])⟩

theorem fits_length {v : Nat} (h : Fits64 v) : 1 ≤ (leBytes v).length ∧ (leBytes v).length ≤ 8 := by
  rw [length_leBytes]; rcases h.2 with h | h | h | h <;> omega

theorem lengths64_lo : ∀ w0 w1 w2 w3 : Fin 4,
    lengths64 (ctrlOf w0 w1 w2 w3 &&& 15) = [actualLength64 w0, actualLength64 w1] ∧
    lengths64 (ctrlOf w0 w1 w2 w3 >>> 4) = [actualLength64 w2, actualLength64 w3] := by
  decide +kernel

/-- control byte of four 64 bit values -/
def groupCtrl64 (a b c d : Nat) : Nat :=
  ctrlOf (encodedWidth64 a) (encodedWidth64 b) (encodedWidth64 c) (encodedWidth64 d)

theorem lengths64_group {a b c d : Nat} (ha : Fits64 a) (hb : Fits64 b) (hc : Fits64 c)
    (hd : Fits64 d) :
    lengths64 (groupCtrl64 a b c d &&& 15) = [(leBytes a).length, (leBytes b).length] ∧
    lengths64 (groupCtrl64 a b c d >>> 4) = [(leBytes c).length, (leBytes d).length] := by
  have := lengths64_lo ⟨_, encodedWidth64_lt a⟩ ⟨_, encodedWidth64_lt b⟩ ⟨_, encodedWidth64_lt c⟩
    ⟨_, encodedWidth64_lt d⟩
  simp only [actual_encoded ha, actual_encoded hb, actual_encoded hc, actual_encoded hd] at this
  exact this

theorem halfTwo (c : Nat) {a b : Nat} (ha : Fits64 a) (hb : Fits64 b)
    (hc : lengths64 c = [(leBytes a).length, (leBytes b).length]) (suf : List Nat)
    (hs : 15 ≤ suf.length) :
    decodeHalf64? c (leBytes a ++ leBytes b ++ suf) = some (a, b) := by
  have := fits_length ha
  have := fits_length hb
  unfold decodeHalf64?
  rw [load16_eq (by simp; omega), Option.map_some, hc]
  have e : shuffleEntries 8 0 [(leBytes a).length, (leBytes b).length] =
      laneEntries 8 0 (leBytes a).length ++ laneEntries 8 (leBytes a).length (leBytes b).length := by
    simp [shuffleEntries, laneEntries]
  have la := loadLE_lane 8 [] (leBytes b ++ suf) a (by simp; omega)
  have lb := loadLE_lane 8 (leBytes a) suf b (by omega)
  simp only [List.append_assoc, List.nil_append, List.length_nil] at la lb ⊢
  rw [e]
  unfold shuffleBytes at la lb ⊢
  rw [List.map_append, List.take_left' (by simp [laneEntries]; omega),
    List.drop_left' (by simp [laneEntries]; omega), List.take_of_length_le (l := List.map _ (laneEntries _ _ _))
      (by simp [laneEntries]; omega), la, lb]

theorem halfOne (c : Nat) {a l : Nat} (ha : Fits64 a)
    (hc : lengths64 c = [(leBytes a).length, l]) (suf : List Nat)
    (hs : 15 ≤ suf.length) :
    ∃ y, decodeHalf64? c (leBytes a ++ suf) = some (a, y) := by
  have := fits_length ha
  unfold decodeHalf64?
  rw [load16_eq (by simp; omega), Option.map_some, hc]
  have e : shuffleEntries 8 0 [(leBytes a).length, l] =
      laneEntries 8 0 (leBytes a).length ++ laneEntries 8 (leBytes a).length l := by
    simp [shuffleEntries, laneEntries]
  have la := loadLE_lane 8 [] suf a (by simp; omega)
  simp only [List.nil_append, List.length_nil] at la ⊢
  rw [e]
  unfold shuffleBytes at la ⊢
  rw [List.map_append, List.take_left' (by simp [laneEntries]; omega), la]
  exact ⟨_, rfl⟩

theorem roundtrip64_aux : ∀ (n : Nat) (xs : List Nat), xs.length = n → (∀ x ∈ xs, Fits64 x) →
    (encodeGroups64 xs).1.length = n / 4 + (if n % 4 ≠ 0 then 1 else 0) ∧
    ∀ crest rest, 15 ≤ rest.length →
      decodeLoop64? (n % 4) (n / 4) ((encodeGroups64 xs).1 ++ crest) ((encodeGroups64 xs).2 ++ rest) =
        some xs := by
  intro n
  induction n using Nat.strongRecOn with
  | ind n ih =>
    intro xs hlen hx
    match xs, hlen with
    | [], hlen =>
      have : n = 0 := by simpa using hlen.symm
      subst this
      exact ⟨rfl, fun _ _ _ => rfl⟩
    | [a], hlen =>
      have : n = 1 := by simpa using hlen.symm
      subst this
      have ha := hx a (by simp)
      refine ⟨rfl, fun crest rest hr => ?_⟩
      obtain ⟨y, hy⟩ := halfOne _ ha (lengths64_group ha fits_zero fits_zero fits_zero).1 rest hr
      simp only [groupCtrl64, ctrlOf] at hy
      simp [encodeGroups64, decodeLoop64?, valueBytes64_eq, hy]
    | [a, b], hlen =>
      have : n = 2 := by simpa using hlen.symm
      subst this
      have ha := hx a (by simp)
      have hb := hx b (by simp)
      refine ⟨rfl, fun crest rest hr => ?_⟩
      have hy := halfTwo _ ha hb (lengths64_group ha hb fits_zero fits_zero).1 rest hr
      simp only [groupCtrl64, ctrlOf, List.append_assoc] at hy
      simp [encodeGroups64, decodeLoop64?, valueBytes64_eq, hy]
    | [a, b, c], hlen =>
      have : n = 3 := by simpa using hlen.symm
      subst this
      have ha := hx a (by simp)
      have hb := hx b (by simp)
      have hc := hx c (by simp)
      refine ⟨rfl, fun crest rest hr => ?_⟩
      have hL := lengths64_group ha hb hc fits_zero
      have hy := halfTwo _ ha hb hL.1 (leBytes c ++ rest) (by simp; omega)
      obtain ⟨z, hz⟩ := halfOne _ hc hL.2 rest hr
      have hd : (leBytes a ++ (leBytes b ++ (leBytes c ++ rest))).drop
          ((leBytes a).length + (leBytes b).length) = leBytes c ++ rest := by
        rw [← List.append_assoc]; exact List.drop_left' (by simp)
      have hs := congrArg List.sum hL.1
      simp only [groupCtrl64, ctrlOf, List.append_assoc] at hy hz hs
      simp [encodeGroups64, decodeLoop64?, valueBytes64_eq, hy]
      rw [hs]
      simp [hd, hz]
    | a :: b :: c :: d :: ys, hlen =>
      simp only [List.length_cons] at hlen
      have ha := hx a (by simp)
      have hb := hx b (by simp)
      have hc := hx c (by simp)
      have hd := hx d (by simp)
      obtain ⟨i1, i2⟩ := ih (n - 4) (by omega) ys (by omega) (fun x h => hx x (by simp [h]))
      constructor
      · simp only [encodeGroups64, List.length_cons, i1]
        rw [show n % 4 = (n - 4) % 4 by omega, show n / 4 = (n - 4) / 4 + 1 by omega]; omega
      · intro crest rest hr
        have hL := lengths64_group ha hb hc hd
        have hy := halfTwo _ ha hb hL.1 (leBytes c ++ leBytes d ++ (encodeGroups64 ys).2 ++ rest)
          (by simp; omega)
        have hz := halfTwo _ hc hd hL.2 ((encodeGroups64 ys).2 ++ rest) (by simp; omega)
        have hdr1 : (leBytes a ++ (leBytes b ++ (leBytes c ++ (leBytes d ++
          ((encodeGroups64 ys).2 ++ rest))))).drop ((leBytes a).length + (leBytes b).length) =
            leBytes c ++ (leBytes d ++ ((encodeGroups64 ys).2 ++ rest)) := by
          rw [← List.append_assoc]; exact List.drop_left' (by simp)
        have hdr2 : (leBytes c ++ (leBytes d ++ ((encodeGroups64 ys).2 ++ rest))).drop
            ((leBytes c).length + (leBytes d).length) = (encodeGroups64 ys).2 ++ rest := by
          rw [← List.append_assoc]; exact List.drop_left' (by simp)
        have hs1 := congrArg List.sum hL.1
        have hs2 := congrArg List.sum hL.2
        simp only [List.sum_cons, List.sum_nil, Nat.add_zero] at hs1 hs2
        rw [show n % 4 = (n - 4) % 4 by omega, show n / 4 = (n - 4) / 4 + 1 by omega]
        have i3 := i2 crest rest hr
        simp only [groupCtrl64, ctrlOf, List.append_assoc] at hy hz hs1 hs2
        simp only [encodeGroups64, decodeLoop64?, valueBytes64_eq, List.append_assoc,
          List.cons_append, hs1, hs2, hdr1, hdr2, hy, hz, i3, Option.bind_eq_bind,
          Option.bind_some, Option.pure_def]

end Verif.StreamVByte
