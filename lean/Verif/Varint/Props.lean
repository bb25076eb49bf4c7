import Verif.Varint.Pext

/-!
# C05: variable length integers round-trip

Specification: writing a value (or a sequence of values) and reading it back from memory that starts
with the written bytes, whatever follows, returns the value(s) and stops exactly behind the bytes
written; the number of bytes written is what the length function announces and never exceeds the
announced maximum; every written cell is a byte.
-/

namespace Verif.Varint

/-- C05, unsigned: for every width and value, with any bytes behind the encoding. -/
theorem C05_varint_roundtrip (w x : Nat) (hw : 0 < w) (hx : x < 2 ^ w) (rest : List Nat) :
    varintDecode w (varintEncode x ++ rest) = some (x, rest) ∧
      (∀ b ∈ varintEncode x, b < 256) ∧
      (varintEncode x).length = varintLength x ∧
      1 ≤ varintLength x ∧ varintLength x ≤ varintMaxLength w := by
  refine ⟨varintDecode_encode hw hx rest, varintEncode_bytes x, length_varintEncode x,
    varintLength_pos x, varintLength_le x _ ?_ (by unfold varintMaxLength; omega)⟩
  refine Nat.lt_of_lt_of_le hx (Nat.pow_le_pow_right (by decide) ?_)
  unfold varintMaxLength; omega

example : varintEncode 300 = [0xAC, 0x02] ∧
    varintDecode 32 (varintEncode 300 ++ [0xFF, 7]) = some (300, [0xFF, 7]) := by
  constructor
  · simp [varintEncode]
  · exact (C05_varint_roundtrip 32 300 (by decide) (by decide) _).1

/-- C05, the BMI2 decoder (used when fast decoding is compiled in) returns the same as the loop
decoder on every encoded value, provided the over-read of at most six bytes stays in bounds. -/
theorem C05_varint_fast_decoder (x : Nat) (rest : List Nat) (hr : 6 ≤ rest.length) :
    (x < 2 ^ 32 → pextDecode32 (varintEncode x ++ rest) = varintDecode 32 (varintEncode x ++ rest)) ∧
    (x < 2 ^ 64 → pextDecode64 (varintEncode x ++ rest) = varintDecode 64 (varintEncode x ++ rest)) ∧
    (x < 2 ^ 32 → pextDecode32 (varintEncode x ++ rest) = some (x, rest)) ∧
    (x < 2 ^ 64 → pextDecode64 (varintEncode x ++ rest) = some (x, rest)) := by
  refine ⟨fun h => ?_, fun h => ?_, fun h => pextDecode32_encode h rest hr,
    fun h => pextDecode64_encode h rest hr⟩
  · rw [pextDecode32_encode h rest hr, varintDecode_encode (by decide) h]
  · rw [pextDecode64_encode h rest hr, varintDecode_encode (by decide) h]

/-- The over-read is real: with a two byte encoding at the very end of the memory block the fast
decoder reads beyond it (`none`), while the loop decoder does not. -/
theorem C05_fast_decoder_overreads :
    pextDecode32 (varintEncode 300) = none ∧ varintDecode 32 (varintEncode 300) = some (300, []) := by
  constructor
  · have : varintEncode 300 = [0xAC, 0x02] := by simp [varintEncode]
    rw [this]; decide
  · have := varintDecode_encode (w := 32) (x := 300) (by decide) (by decide) []
    simpa using this

/-- C05, signed: for every signed integer of the width. -/
theorem C05_signed_varint_roundtrip (w : Nat) (x : Int) (hw : 0 < w)
    (h1 : -(2 ^ (w - 1) : Int) ≤ x) (h2 : x < (2 ^ (w - 1) : Int)) (rest : List Nat) :
    signedDecode w (signedEncode w x ++ rest) = some (x, rest) ∧
      (∀ b ∈ signedEncode w x, b < 256) ∧
      (signedEncode w x).length = signedLength w x ∧ signedLength w x ≤ varintMaxLength w := by
  refine ⟨signedDecode_encode hw h1 h2 rest, signedEncode_bytes w x, length_signedEncode w x, ?_⟩
  exact (C05_varint_roundtrip w _ hw (BitVec.isLt _) rest).2.2.2.2

example : signedDecode 64 (signedEncode 64 (-9223372036854775808) ++ [1]) =
    some (-9223372036854775808, [1]) :=
  (C05_signed_varint_roundtrip 64 _ (by decide) (by decide) (by decide) [1]).1

/-- C05, marked: value and mark come back. -/
theorem C05_marked_varint_roundtrip (w x : Nat) (m : Bool) (hw : 6 < w) (hx : x < 2 ^ w)
    (rest : List Nat) :
    markedDecode w (markedEncode x m ++ rest) = some ((x, m), rest) ∧
      (∀ b ∈ markedEncode x m, b < 256) ∧
      (markedEncode x m).length = markedLength x :=
  ⟨markedEncode_decode hw hx m rest, markedEncode_bytes x m, length_markedEncode x m⟩

example : markedDecode 64 (markedEncode 1000 true ++ [9]) = some ((1000, true), [9]) :=
  (C05_marked_varint_roundtrip 64 1000 true (by decide) (by decide) [9]).1

/-- Reading `n` values in a row (specification helper: repeated use of the decoder). -/
def readMany (w : Nat) : Nat → List Nat → Option (List Nat × List Nat)
  | 0, data => some ([], data)
  | n + 1, data =>
    match varintDecode w data with
    | none => none
    | some (x, data') =>
      match readMany w n data' with
      | none => none
      | some (xs, d) => some (x :: xs, d)

/-- C05, sequences: a concatenation of encodings decodes to the original sequence. -/
theorem C05_varint_sequence (w : Nat) (hw : 0 < w) (xs : List Nat) (hx : ∀ x ∈ xs, x < 2 ^ w)
    (rest : List Nat) :
    readMany w xs.length ((xs.map varintEncode).flatten ++ rest) = some (xs, rest) := by
  induction xs with
  | nil => rfl
  | cons x xs ih =>
    have h1 : x < 2 ^ w := hx x (by simp)
    simp only [List.length_cons, List.map_cons, List.flatten_cons, List.append_assoc, readMany]
    rw [varintDecode_encode hw h1]
    simp only [ih (fun y hy => hx y (by simp [hy]))]

example : readMany 32 3 (([5, 4294967295, 128].map varintEncode).flatten ++ [200]) =
    some ([5, 4294967295, 128], [200]) :=
  C05_varint_sequence 32 (by decide) [5, 4294967295, 128] (by decide) [200]

/-- C05, injectivity: no encoding is a proper prefix of (or equal to) the encoding of another
value, so the stream is uniquely decodable. -/
theorem C05_varint_prefix_free (w x y : Nat) (hw : 0 < w) (hx : x < 2 ^ w) (hy : y < 2 ^ w)
    (a b : List Nat) (h : varintEncode x ++ a = varintEncode y ++ b) : x = y ∧ a = b := by
  have h1 := varintDecode_encode hw hx a
  rw [h, varintDecode_encode hw hy b] at h1
  simp only [Option.some.injEq, Prod.mk.injEq] at h1
  exact ⟨h1.1.symm, h1.2.symm⟩

example : varintEncode 7 ++ [1] = varintEncode 7 ++ [1] ∧ 7 < 2 ^ 32 := ⟨rfl, by decide⟩

end Verif.Varint
