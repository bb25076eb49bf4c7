import Verif.Varint.Lemmas

namespace Verif.Varint

theorem pext_zero (n x : Nat) : pext n x 0 = 0 := by
  induction n generalizing x with
  | zero => rfl
  | succ n ih => simp [pext, ih]

theorem pext_byte (n b y M : Nat) (hb : b < 256) :
    pext (n + 8) (b + 256 * y) (127 + 256 * M) = b % 128 + 128 * pext n y M := by
  have e1 : (127 + 256 * M) = 2 * (63 + 128 * M) + 1 := by omega
  have e2 : (63 + 128 * M) = 2 * (31 + 64 * M) + 1 := by omega
  have e3 : (31 + 64 * M) = 2 * (15 + 32 * M) + 1 := by omega
  have e4 : (15 + 32 * M) = 2 * (7 + 16 * M) + 1 := by omega
  have e5 : (7 + 16 * M) = 2 * (3 + 8 * M) + 1 := by omega
  have e6 : (3 + 8 * M) = 2 * (1 + 4 * M) + 1 := by omega
  have e7 : (1 + 4 * M) = 2 * (2 * M) + 1 := by omega
  have odd : ∀ n x k, pext (n + 1) x (2 * k + 1) = x % 2 + 2 * pext n (x / 2) k := by
    intro n x k
    rw [pext, if_pos (by omega), show (2 * k + 1) / 2 = k by omega]
  have even : ∀ n x k, pext (n + 1) x (2 * k) = pext n (x / 2) k := by
    intro n x k
    rw [pext, if_neg (by omega), show 2 * k / 2 = k by omega]
  rw [e1, odd, e2, odd, e3, odd, e4, odd, e5, odd, e6, odd, e7, odd, even]
  have : (b + 256 * y) / 2 / 2 / 2 / 2 / 2 / 2 / 2 / 2 = y := by omega
  rw [this]
  omega

theorem contB (b : Nat) (h : b < 128) : (b + 128) &&& 128 ≠ 0 :=
  highByte_cont (by omega) (by omega)

theorem m128 (x : Nat) : x % 128 < 128 := Nat.mod_lt _ (by decide)

theorem load?_eq {k : Nat} {data : List Nat} (h : k ≤ data.length) :
    load? k data = some (loadLE (data.take k)) := by rw [load?, if_pos h]

/-- two masked bytes, whatever follows -/
theorem pext2 (n b0 b1 y : Nat) (h0 : b0 < 256) (h1 : b1 < 256) :
    pext (n + 16) (b0 + 256 * (b1 + 256 * y)) 0x7F7F = b0 % 128 + 128 * (b1 % 128) := by
  rw [show (0x7F7F : Nat) = 127 + 256 * (127 + 256 * 0) from rfl,
    show n + 16 = (n + 8) + 8 from rfl, pext_byte _ _ _ _ h0, pext_byte _ _ _ _ h1, pext_zero]
  omega

theorem pext3 (n b0 b1 b2 y : Nat) (h0 : b0 < 256) (h1 : b1 < 256) (h2 : b2 < 256) :
    pext (n + 24) (b0 + 256 * (b1 + 256 * (b2 + 256 * y))) 0x7F7F7F =
      b0 % 128 + 128 * (b1 % 128) + 16384 * (b2 % 128) := by
  rw [show (0x7F7F7F : Nat) = 127 + 256 * 0x7F7F from rfl,
    show n + 24 = (n + 16) + 8 from rfl, pext_byte _ _ _ _ h0, pext2 _ _ _ _ h1 h2]
  omega

theorem pext4 (n b0 b1 b2 b3 y : Nat) (h0 : b0 < 256) (h1 : b1 < 256) (h2 : b2 < 256)
    (h3 : b3 < 256) :
    pext (n + 32) (b0 + 256 * (b1 + 256 * (b2 + 256 * (b3 + 256 * y)))) 0x7F7F7F7F =
      b0 % 128 + 128 * (b1 % 128) + 16384 * (b2 % 128) + 2097152 * (b3 % 128) := by
  rw [show (0x7F7F7F7F : Nat) = 127 + 256 * 0x7F7F7F from rfl,
    show n + 32 = (n + 24) + 8 from rfl, pext_byte _ _ _ _ h0, pext3 _ _ _ _ _ h1 h2 h3]
  omega

theorem pext5 (n b0 b1 b2 b3 b4 y : Nat) (h0 : b0 < 256) (h1 : b1 < 256) (h2 : b2 < 256)
    (h3 : b3 < 256) (h4 : b4 < 256) :
    pext (n + 40) (b0 + 256 * (b1 + 256 * (b2 + 256 * (b3 + 256 * (b4 + 256 * y))))) 0x7F7F7F7F7F =
      b0 % 128 + 128 * (b1 % 128) + 16384 * (b2 % 128) + 2097152 * (b3 % 128)
        + 268435456 * (b4 % 128) := by
  rw [show (0x7F7F7F7F7F : Nat) = 127 + 256 * 0x7F7F7F7F from rfl,
    show n + 40 = (n + 32) + 8 from rfl, pext_byte _ _ _ _ h0, pext4 _ _ _ _ _ _ h1 h2 h3 h4]
  omega

theorem pext6 (n b0 b1 b2 b3 b4 b5 y : Nat) (h0 : b0 < 256) (h1 : b1 < 256) (h2 : b2 < 256)
    (h3 : b3 < 256) (h4 : b4 < 256) (h5 : b5 < 256) :
    pext (n + 48) (b0 + 256 * (b1 + 256 * (b2 + 256 * (b3 + 256 * (b4 + 256 * (b5 + 256 * y))))))
      0x7F7F7F7F7F7F =
      b0 % 128 + 128 * (b1 % 128) + 16384 * (b2 % 128) + 2097152 * (b3 % 128)
        + 268435456 * (b4 % 128) + 34359738368 * (b5 % 128) := by
  rw [show (0x7F7F7F7F7F7F : Nat) = 127 + 256 * 0x7F7F7F7F7F from rfl,
    show n + 48 = (n + 40) + 8 from rfl, pext_byte _ _ _ _ h0, pext5 _ _ _ _ _ _ _ h1 h2 h3 h4 h5]
  omega

theorem pext7 (n b0 b1 b2 b3 b4 b5 b6 y : Nat) (h0 : b0 < 256) (h1 : b1 < 256) (h2 : b2 < 256)
    (h3 : b3 < 256) (h4 : b4 < 256) (h5 : b5 < 256) (h6 : b6 < 256) :
    pext (n + 56) (b0 + 256 * (b1 + 256 * (b2 + 256 * (b3 + 256 * (b4 + 256 * (b5 + 256 *
      (b6 + 256 * y))))))) 0x7F7F7F7F7F7F7F =
      b0 % 128 + 128 * (b1 % 128) + 16384 * (b2 % 128) + 2097152 * (b3 % 128)
        + 268435456 * (b4 % 128) + 34359738368 * (b5 % 128) + 4398046511104 * (b6 % 128) := by
  rw [show (0x7F7F7F7F7F7F7F : Nat) = 127 + 256 * 0x7F7F7F7F7F7F from rfl,
    show n + 56 = (n + 48) + 8 from rfl, pext_byte _ _ _ _ h0,
    pext6 _ _ _ _ _ _ _ _ h1 h2 h3 h4 h5 h6]
  omega

theorem pext8 (n b0 b1 b2 b3 b4 b5 b6 b7 y : Nat) (h0 : b0 < 256) (h1 : b1 < 256) (h2 : b2 < 256)
    (h3 : b3 < 256) (h4 : b4 < 256) (h5 : b5 < 256) (h6 : b6 < 256) (h7 : b7 < 256) :
    pext (n + 64) (b0 + 256 * (b1 + 256 * (b2 + 256 * (b3 + 256 * (b4 + 256 * (b5 + 256 *
      (b6 + 256 * (b7 + 256 * y)))))))) 0x7F7F7F7F7F7F7F7F =
      b0 % 128 + 128 * (b1 % 128) + 16384 * (b2 % 128) + 2097152 * (b3 % 128)
        + 268435456 * (b4 % 128) + 34359738368 * (b5 % 128) + 4398046511104 * (b6 % 128)
        + 562949953421312 * (b7 % 128) := by
  rw [show (0x7F7F7F7F7F7F7F7F : Nat) = 127 + 256 * 0x7F7F7F7F7F7F7F from rfl,
    show n + 64 = (n + 56) + 8 from rfl, pext_byte _ _ _ _ h0,
    pext7 _ _ _ _ _ _ _ _ _ h1 h2 h3 h4 h5 h6 h7]
  omega

theorem cb (x : Nat) : x % 128 + 128 < 256 := by have := m128 x; omega

theorem loadLE_cons (b : Nat) (bs : List Nat) : loadLE (b :: bs) = b + 256 * loadLE bs := rfl

theorem pextDecode32_encode {x : Nat} (hx : x < 2 ^ 32) (rest : List Nat) (hr : 6 ≤ rest.length) :
    pextDecode32 (varintEncode x ++ rest) = some (x, rest) := by
  unfold pextDecode32
  by_cases h1 : x ≤ 127
  · rw [varintEncode_small h1]
    simp [byte?, lowByte_cont (show x < 128 by omega), and127]; omega
  rw [varintEncode_big (by omega)]
  by_cases h2 : x / 128 ≤ 127
  · rw [varintEncode_small h2]
    have hld := load?_eq (k := 4) (data := (x % 128 + 128) :: (x / 128) :: rest) (by simp; omega)
    have c0 := contB _ (m128 x)
    simp [byte?, c0, lowByte_cont (show x / 128 < 128 by omega), hld, loadLE_cons]
    rw [pext2 16 _ _ _ (cb _) (by omega)]; omega
  rw [varintEncode_big (by omega)]
  by_cases h3 : x / 128 / 128 ≤ 127
  · rw [varintEncode_small h3]
    have hld := load?_eq (k := 4) (data := (x % 128 + 128) :: (x / 128 % 128 + 128) ::
      (x / 128 / 128) :: rest) (by simp; omega)
    have c0 := contB _ (m128 x)
    have c1 := contB _ (m128 (x / 128))
    simp only [byte?, List.cons_append, List.nil_append, hld] at *
    simp [c0, c1, lowByte_cont (show x / 128 / 128 < 128 by omega), loadLE_cons]
    rw [pext3 8 _ _ _ _ (cb _) (cb _) (by omega)]; omega
  rw [varintEncode_big (by omega)]
  by_cases h4 : x / 128 / 128 / 128 ≤ 127
  · rw [varintEncode_small h4]
    have hld := load?_eq (k := 4) (data := (x % 128 + 128) :: (x / 128 % 128 + 128) ::
      (x / 128 / 128 % 128 + 128) :: (x / 128 / 128 / 128) :: rest) (by simp)
    have c0 := contB _ (m128 x)
    have c1 := contB _ (m128 (x / 128))
    have c2 := contB _ (m128 (x / 128 / 128))
    simp only [byte?, List.cons_append, List.nil_append, hld] at *
    simp [c0, c1, c2, lowByte_cont (show x / 128 / 128 / 128 < 128 by omega), loadLE_cons]
    rw [show (x / 128 / 128 / 128) = x / 128 / 128 / 128 + 256 * 0 by omega]
    rw [pext4 0 _ _ _ _ _ (cb _) (cb _) (cb _) (by omega)]; omega
  rw [varintEncode_big (by omega), varintEncode_small (by omega)]
  have hld := load?_eq (k := 8) (data := (x % 128 + 128) :: (x / 128 % 128 + 128) ::
      (x / 128 / 128 % 128 + 128) :: (x / 128 / 128 / 128 % 128 + 128) ::
      (x / 128 / 128 / 128 / 128) :: rest) (by simp; omega)
  have c0 := contB _ (m128 x)
  have c1 := contB _ (m128 (x / 128))
  have c2 := contB _ (m128 (x / 128 / 128))
  have c3 := contB _ (m128 (x / 128 / 128 / 128))
  simp only [byte?, List.cons_append, List.nil_append, hld] at *
  simp [c0, c1, c2, c3, loadLE_cons]
  rw [pext5 24 _ _ _ _ _ _ (cb _) (cb _) (cb _) (cb _) (by omega)]; omega

theorem pextDecode64_case2 {d0 d1 : Nat} (h0 : d0 < 128) (h1 : d1 < 128) (rest : List Nat) (_hr : 6 ≤ rest.length) :
    pextDecode64 ((d0 + 128) :: d1 :: rest) =
      some (1 * d0 + 128 * d1, rest) := by
  unfold pextDecode64
  have hld := load?_eq (k := 4) (data := (d0 + 128) :: d1 :: rest) (by simp <;> omega)
  have c0 := contB _ h0
  simp only [byte?, hld]
  simp [c0, lowByte_cont h1, loadLE_cons]
  rw [pext2 16 _ _ _ (by omega) (by omega)]; omega

theorem pextDecode64_case3 {d0 d1 d2 : Nat} (h0 : d0 < 128) (h1 : d1 < 128) (h2 : d2 < 128) (rest : List Nat) (_hr : 6 ≤ rest.length) :
    pextDecode64 ((d0 + 128) :: (d1 + 128) :: d2 :: rest) =
      some (1 * d0 + 128 * d1 + 16384 * d2, rest) := by
  unfold pextDecode64
  have hld := load?_eq (k := 4) (data := (d0 + 128) :: (d1 + 128) :: d2 :: rest) (by simp <;> omega)
  have c0 := contB _ h0
  have c1 := contB _ h1
  simp only [byte?, hld]
  simp [c0, c1, lowByte_cont h2, loadLE_cons]
  rw [pext3 8 _ _ _ _ (by omega) (by omega) (by omega)]; omega

theorem pextDecode64_case4 {d0 d1 d2 d3 : Nat} (h0 : d0 < 128) (h1 : d1 < 128) (h2 : d2 < 128) (h3 : d3 < 128) (rest : List Nat) (_hr : 6 ≤ rest.length) :
    pextDecode64 ((d0 + 128) :: (d1 + 128) :: (d2 + 128) :: d3 :: rest) =
      some (1 * d0 + 128 * d1 + 16384 * d2 + 2097152 * d3, rest) := by
  unfold pextDecode64
  have hld := load?_eq (k := 4) (data := (d0 + 128) :: (d1 + 128) :: (d2 + 128) :: d3 :: rest) (by simp <;> omega)
  have c0 := contB _ h0
  have c1 := contB _ h1
  have c2 := contB _ h2
  simp only [byte?, hld]
  simp [c0, c1, c2, lowByte_cont h3, loadLE_cons]
  rw [show d3 = d3 + 256 * 0 by omega]
  rw [pext4 0 _ _ _ _ _ (by omega) (by omega) (by omega) (by omega)]; omega

theorem pextDecode64_case5 {d0 d1 d2 d3 d4 : Nat} (h0 : d0 < 128) (h1 : d1 < 128) (h2 : d2 < 128) (h3 : d3 < 128) (h4 : d4 < 128) (rest : List Nat) (_hr : 6 ≤ rest.length) :
    pextDecode64 ((d0 + 128) :: (d1 + 128) :: (d2 + 128) :: (d3 + 128) :: d4 :: rest) =
      some (1 * d0 + 128 * d1 + 16384 * d2 + 2097152 * d3 + 268435456 * d4, rest) := by
  unfold pextDecode64
  have hld := load?_eq (k := 8) (data := (d0 + 128) :: (d1 + 128) :: (d2 + 128) :: (d3 + 128) :: d4 :: rest) (by simp <;> omega)
  have c0 := contB _ h0
  have c1 := contB _ h1
  have c2 := contB _ h2
  have c3 := contB _ h3
  simp only [byte?, hld]
  simp [c0, c1, c2, c3, lowByte_cont h4, loadLE_cons]
  rw [pext5 24 _ _ _ _ _ _ (by omega) (by omega) (by omega) (by omega) (by omega)]; omega

theorem pextDecode64_case6 {d0 d1 d2 d3 d4 d5 : Nat} (h0 : d0 < 128) (h1 : d1 < 128) (h2 : d2 < 128) (h3 : d3 < 128) (h4 : d4 < 128) (h5 : d5 < 128) (rest : List Nat) (_hr : 6 ≤ rest.length) :
    pextDecode64 ((d0 + 128) :: (d1 + 128) :: (d2 + 128) :: (d3 + 128) :: (d4 + 128) :: d5 :: rest) =
      some (1 * d0 + 128 * d1 + 16384 * d2 + 2097152 * d3 + 268435456 * d4 + 34359738368 * d5, rest) := by
  unfold pextDecode64
  have hld := load?_eq (k := 8) (data := (d0 + 128) :: (d1 + 128) :: (d2 + 128) :: (d3 + 128) :: (d4 + 128) :: d5 :: rest) (by simp <;> omega)
  have c0 := contB _ h0
  have c1 := contB _ h1
  have c2 := contB _ h2
  have c3 := contB _ h3
  have c4 := contB _ h4
  simp only [byte?, hld]
  simp [c0, c1, c2, c3, c4, lowByte_cont h5, loadLE_cons]
  rw [pext6 16 _ _ _ _ _ _ _ (by omega) (by omega) (by omega) (by omega) (by omega) (by omega)]; omega

theorem pextDecode64_case7 {d0 d1 d2 d3 d4 d5 d6 : Nat} (h0 : d0 < 128) (h1 : d1 < 128) (h2 : d2 < 128) (h3 : d3 < 128) (h4 : d4 < 128) (h5 : d5 < 128) (h6 : d6 < 128) (rest : List Nat) (_hr : 6 ≤ rest.length) :
    pextDecode64 ((d0 + 128) :: (d1 + 128) :: (d2 + 128) :: (d3 + 128) :: (d4 + 128) :: (d5 + 128) :: d6 :: rest) =
      some (1 * d0 + 128 * d1 + 16384 * d2 + 2097152 * d3 + 268435456 * d4 + 34359738368 * d5 + 4398046511104 * d6, rest) := by
  unfold pextDecode64
  have hld := load?_eq (k := 8) (data := (d0 + 128) :: (d1 + 128) :: (d2 + 128) :: (d3 + 128) :: (d4 + 128) :: (d5 + 128) :: d6 :: rest) (by simp <;> omega)
  have c0 := contB _ h0
  have c1 := contB _ h1
  have c2 := contB _ h2
  have c3 := contB _ h3
  have c4 := contB _ h4
  have c5 := contB _ h5
  simp only [byte?, hld]
  simp [c0, c1, c2, c3, c4, c5, lowByte_cont h6, loadLE_cons]
  rw [pext7 8 _ _ _ _ _ _ _ _ (by omega) (by omega) (by omega) (by omega) (by omega) (by omega) (by omega)]; omega

theorem pextDecode64_case8 {d0 d1 d2 d3 d4 d5 d6 d7 : Nat} (h0 : d0 < 128) (h1 : d1 < 128) (h2 : d2 < 128) (h3 : d3 < 128) (h4 : d4 < 128) (h5 : d5 < 128) (h6 : d6 < 128) (h7 : d7 < 128) (rest : List Nat) (_hr : 6 ≤ rest.length) :
    pextDecode64 ((d0 + 128) :: (d1 + 128) :: (d2 + 128) :: (d3 + 128) :: (d4 + 128) :: (d5 + 128) :: (d6 + 128) :: d7 :: rest) =
      some (1 * d0 + 128 * d1 + 16384 * d2 + 2097152 * d3 + 268435456 * d4 + 34359738368 * d5 + 4398046511104 * d6 + 562949953421312 * d7, rest) := by
  unfold pextDecode64
  have hld := load?_eq (k := 8) (data := (d0 + 128) :: (d1 + 128) :: (d2 + 128) :: (d3 + 128) :: (d4 + 128) :: (d5 + 128) :: (d6 + 128) :: d7 :: rest) (by simp <;> omega)
  have c0 := contB _ h0
  have c1 := contB _ h1
  have c2 := contB _ h2
  have c3 := contB _ h3
  have c4 := contB _ h4
  have c5 := contB _ h5
  have c6 := contB _ h6
  simp only [byte?, hld]
  simp [c0, c1, c2, c3, c4, c5, c6, lowByte_cont h7, loadLE_cons]
  rw [show d7 = d7 + 256 * 0 by omega]
  rw [pext8 0 _ _ _ _ _ _ _ _ _ (by omega) (by omega) (by omega) (by omega) (by omega) (by omega) (by omega) (by omega)]; omega

theorem pextDecode64_case9 {d0 d1 d2 d3 d4 d5 d6 d7 d8 : Nat} (h0 : d0 < 128) (h1 : d1 < 128) (h2 : d2 < 128) (h3 : d3 < 128) (h4 : d4 < 128) (h5 : d5 < 128) (h6 : d6 < 128) (h7 : d7 < 128) (h8 : d8 < 128) (rest : List Nat) (_hr : 6 ≤ rest.length) :
    pextDecode64 ((d0 + 128) :: (d1 + 128) :: (d2 + 128) :: (d3 + 128) :: (d4 + 128) :: (d5 + 128) :: (d6 + 128) :: (d7 + 128) :: d8 :: rest) =
      some (1 * d0 + 128 * d1 + 16384 * d2 + 2097152 * d3 + 268435456 * d4 + 34359738368 * d5 + 4398046511104 * d6 + 562949953421312 * d7 + 72057594037927936 * d8, rest) := by
  unfold pextDecode64
  have hld := load?_eq (k := 8) (data := (d0 + 128) :: (d1 + 128) :: (d2 + 128) :: (d3 + 128) :: (d4 + 128) :: (d5 + 128) :: (d6 + 128) :: (d7 + 128) :: d8 :: rest) (by simp <;> omega)
  have c0 := contB _ h0
  have c1 := contB _ h1
  have c2 := contB _ h2
  have c3 := contB _ h3
  have c4 := contB _ h4
  have c5 := contB _ h5
  have c6 := contB _ h6
  have c7 := contB _ h7
  simp only [byte?, hld]
  simp [c0, c1, c2, c3, c4, c5, c6, c7, lowByte_cont h8, loadLE_cons, and127]
  rw [show (d7 + 128) = d7 + 128 + 256 * 0 by omega]
  rw [pext8 0 _ _ _ _ _ _ _ _ _ (by omega) (by omega) (by omega) (by omega) (by omega) (by omega) (by omega) (by omega)]
  rw [or_add _ (by omega)]; omega

theorem pextDecode64_case10 {d0 d1 d2 d3 d4 d5 d6 d7 d8 d9 : Nat} (h0 : d0 < 128) (h1 : d1 < 128) (h2 : d2 < 128) (h3 : d3 < 128) (h4 : d4 < 128) (h5 : d5 < 128) (h6 : d6 < 128) (h7 : d7 < 128) (h8 : d8 < 128) (h9 : d9 < 2) (rest : List Nat) (_hr : 6 ≤ rest.length) :
    pextDecode64 ((d0 + 128) :: (d1 + 128) :: (d2 + 128) :: (d3 + 128) :: (d4 + 128) :: (d5 + 128) :: (d6 + 128) :: (d7 + 128) :: (d8 + 128) :: d9 :: rest) =
      some (1 * d0 + 128 * d1 + 16384 * d2 + 2097152 * d3 + 268435456 * d4 + 34359738368 * d5 + 4398046511104 * d6 + 562949953421312 * d7 + 72057594037927936 * d8 + 9223372036854775808 * d9, rest) := by
  unfold pextDecode64
  have hld := load?_eq (k := 8) (data := (d0 + 128) :: (d1 + 128) :: (d2 + 128) :: (d3 + 128) :: (d4 + 128) :: (d5 + 128) :: (d6 + 128) :: (d7 + 128) :: (d8 + 128) :: d9 :: rest) (by simp <;> omega)
  have c0 := contB _ h0
  have c1 := contB _ h1
  have c2 := contB _ h2
  have c3 := contB _ h3
  have c4 := contB _ h4
  have c5 := contB _ h5
  have c6 := contB _ h6
  have c7 := contB _ h7
  have c8 := contB _ h8
  simp only [byte?, hld]
  simp [c0, c1, c2, c3, c4, c5, c6, c7, c8, loadLE_cons, and127]
  rw [show (d7 + 128) = d7 + 128 + 256 * 0 by omega]
  rw [pext8 0 _ _ _ _ _ _ _ _ _ (by omega) (by omega) (by omega) (by omega) (by omega) (by omega) (by omega) (by omega)]
  rw [or_add _ (by omega), Nat.mod_eq_of_lt (a := d9 <<< 63) (by rw [Nat.shiftLeft_eq]; omega), or_add _ (by omega)]; omega

theorem pextDecode64_encode {x : Nat} (hx : x < 2 ^ 64) (rest : List Nat) (hr : 6 ≤ rest.length) :
    pextDecode64 (varintEncode x ++ rest) = some (x, rest) := by
  by_cases h1 : x ≤ 127
  · rw [varintEncode_small h1]
    unfold pextDecode64
    simp [byte?, lowByte_cont (show x < 128 by omega), and127]; omega
  rw [varintEncode_big (by omega)]
  by_cases h2 : x / 128 ≤ 127
  · rw [varintEncode_small h2]
    refine (pextDecode64_case2 (m128 _) (by omega) rest hr).trans ?_
    congr 2; omega
  rw [varintEncode_big (by omega)]
  by_cases h3 : x / 128 / 128 ≤ 127
  · rw [varintEncode_small h3]
    refine (pextDecode64_case3 (m128 _) (m128 _) (by omega) rest hr).trans ?_
    congr 2; omega
  rw [varintEncode_big (by omega)]
  by_cases h4 : x / 128 / 128 / 128 ≤ 127
  · rw [varintEncode_small h4]
    refine (pextDecode64_case4 (m128 _) (m128 _) (m128 _) (by omega) rest hr).trans ?_
    congr 2; omega
  rw [varintEncode_big (by omega)]
  by_cases h5 : x / 128 / 128 / 128 / 128 ≤ 127
  · rw [varintEncode_small h5]
    refine (pextDecode64_case5 (m128 _) (m128 _) (m128 _) (m128 _) (by omega) rest hr).trans ?_
    congr 2; omega
  rw [varintEncode_big (by omega)]
  by_cases h6 : x / 128 / 128 / 128 / 128 / 128 ≤ 127
  · rw [varintEncode_small h6]
    refine (pextDecode64_case6 (m128 _) (m128 _) (m128 _) (m128 _) (m128 _) (by omega) rest hr).trans ?_
    congr 2; omega
  rw [varintEncode_big (by omega)]
  by_cases h7 : x / 128 / 128 / 128 / 128 / 128 / 128 ≤ 127
  · rw [varintEncode_small h7]
    refine (pextDecode64_case7 (m128 _) (m128 _) (m128 _) (m128 _) (m128 _) (m128 _) (by omega) rest hr).trans ?_
    congr 2; omega
  rw [varintEncode_big (by omega)]
  by_cases h8 : x / 128 / 128 / 128 / 128 / 128 / 128 / 128 ≤ 127
  · rw [varintEncode_small h8]
    refine (pextDecode64_case8 (m128 _) (m128 _) (m128 _) (m128 _) (m128 _) (m128 _) (m128 _) (by omega) rest hr).trans ?_
    congr 2; omega
  rw [varintEncode_big (by omega)]
  by_cases h9 : x / 128 / 128 / 128 / 128 / 128 / 128 / 128 / 128 ≤ 127
  · rw [varintEncode_small h9]
    refine (pextDecode64_case9 (m128 _) (m128 _) (m128 _) (m128 _) (m128 _) (m128 _) (m128 _) (m128 _) (by omega) rest hr).trans ?_
    congr 2; omega
  rw [varintEncode_big (by omega)]
  rw [varintEncode_small (by omega)]
  refine (pextDecode64_case10 (m128 _) (m128 _) (m128 _) (m128 _) (m128 _) (m128 _) (m128 _) (m128 _) (m128 _) (by omega) rest hr).trans ?_
  congr 2; omega

end Verif.Varint
