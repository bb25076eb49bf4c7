import Verif.StreamVByte.Lemmas

/-!
# C07 and C46: StreamVByte coding round-trips

Specification: `decode (encode xs ++ rest) = xs` for every list `xs` of machine words and any (at
least 15) readable bytes `rest` behind the encoding (`CompressedNeighborhoodsBuilder::build` appends
15 bytes for exactly this purpose).
-/

namespace Verif.StreamVByte

/-- C07: 32 bit values, every gap kind, every length.  Only the `DM` gap kind needs the values in
non-decreasing order. -/
theorem C07_streamvbyte_roundtrip (k : Kind) (xs rest : List Nat) (hx : ∀ x ∈ xs, x < 2 ^ 32)
    (hsorted : k = .DM → xs.Pairwise (· ≤ ·)) (hrest : 15 ≤ rest.length) :
    decode? k xs.length (encode k xs ++ rest) = some xs := by
  obtain ⟨C, D, h1, h2, h3, _, _, h6⟩ := roundtrip_aux k xs.length xs rfl {} {} rfl
    (by refine ⟨by decide, by decide, by decide, by decide, by decide, ?_⟩; cases k <;> simp)
    hx (fun hk => ⟨fun x _ => Nat.zero_le _, hsorted hk⟩)
  simp only [List.nil_append] at h1 h2
  have e : encode k xs = C ++ D := by simp only [encode, h1, h2]
  unfold decode?
  rw [e, ← h3]
  simp only [List.append_assoc, List.drop_left]
  exact h6 (D ++ rest) rest hrest

example : decode? .D1 5 (encode .D1 [7, 300, 70000, 4294967295, 2] ++ List.replicate 15 255) =
    some [7, 300, 70000, 4294967295, 2] :=
  C07_streamvbyte_roundtrip .D1 [7, 300, 70000, 4294967295, 2] _ (by decide) (by decide) (by decide)

/-- C07: the decoder that passes pairs (neighbour, weight), used with gaps two apart. -/
theorem C07_streamvbyte_pairs_roundtrip (k : Kind) (ps : List (Nat × Nat)) (rest : List Nat)
    (hx : ∀ p ∈ ps, p.1 < 2 ^ 32 ∧ p.2 < 2 ^ 32)
    (hk : k ≠ .DM) (hrest : 15 ≤ rest.length) :
    decodePairs? k (2 * ps.length) (encode k (ps.flatMap fun p => [p.1, p.2]) ++ rest) = some ps := by
  have hlen : (ps.flatMap fun p => [p.1, p.2]).length = 2 * ps.length := by
    induction ps with
    | nil => rfl
    | cons p ps ih =>
      have := ih (fun q hq => hx q (by simp [hq]))
      simp only [List.flatMap_cons, List.length_append, this, List.length_cons, List.length_nil]
      omega
  have hp : pairUp (ps.flatMap fun p => [p.1, p.2]) = ps := by
    clear hlen hx
    induction ps with
    | nil => rfl
    | cons p ps ih =>
      simp only [List.flatMap_cons, List.cons_append, List.nil_append, pairUp, ih]
  have hxx : ∀ x ∈ ps.flatMap fun p => [p.1, p.2], x < 2 ^ 32 := by
    intro x hmem
    obtain ⟨p, hp1, hp2⟩ := List.mem_flatMap.1 hmem
    have := hx p hp1
    simp only [List.mem_cons, List.not_mem_nil, or_false] at hp2
    rcases hp2 with rfl | rfl
    · exact this.1
    · exact this.2
  have h := C07_streamvbyte_roundtrip k (ps.flatMap fun p => [p.1, p.2]) rest hxx
    (fun h => absurd h hk) hrest
  rw [hlen] at h
  unfold decode? at h
  unfold decodePairs?
  have hr : (if 2 * ps.length % 4 = 2 then 2 else 0) = 2 * ps.length % 4 := by split <;> omega
  rw [hr, h, Option.map_some, hp]

example : decodePairs? .D2 6 (encode .D2 [3, 10, 9, 4000000000, 12, 1] ++ List.replicate 15 0) =
    some [(3, 10), (9, 4000000000), (12, 1)] :=
  C07_streamvbyte_pairs_roundtrip .D2 [(3, 10), (9, 4000000000), (12, 1)] _ (by decide) (by decide)
    (by decide)

/-- C07: the sum of the byte counts returned by `add` is the number of bytes written (the caller
advances its output pointer by it), and only bytes are written. -/
theorem C07_streamvbyte_reported_size (k : Kind) (xs : List Nat) (hx : ∀ x ∈ xs, x < 2 ^ 32)
    (hsorted : k = .DM → xs.Pairwise (· ≤ ·)) :
    returnedBytes k {} xs = (encode k xs).length ∧ ∀ b ∈ encode k xs, b < 256 := by
  obtain ⟨C, D, h1, h2, _, h4, h5, _⟩ := roundtrip_aux k xs.length xs rfl {} {} rfl
    (by refine ⟨by decide, by decide, by decide, by decide, by decide, ?_⟩; cases k <;> simp)
    hx (fun hk => ⟨fun x _ => Nat.zero_le _, hsorted hk⟩)
  simp only [List.nil_append] at h1 h2
  have e : encode k xs = C ++ D := by simp only [encode, h1, h2]
  rw [e, h4]
  exact ⟨by simp, h5⟩

example : returnedBytes .NONE {} [1, 2, 300, 4, 5] = (encode .NONE [1, 2, 300, 4, 5]).length :=
  (C07_streamvbyte_reported_size .NONE [1, 2, 300, 4, 5] (by decide) (by decide)).1

/-- The sortedness hypothesis of `C07_streamvbyte_roundtrip` for `DM` is needed: the encoder keeps a
running maximum, the decoder takes the last value of the previous group. -/
theorem C07_DM_needs_sorted :
    decode? .DM 9 (encode .DM [5, 5, 5, 5, 1, 1, 1, 1, 0] ++ List.replicate 15 0) ≠
      some [5, 5, 5, 5, 1, 1, 1, 1, 0] := by
  have h4 : leBytes 4294967292 = [252, 255, 255, 255] := by
    rw [leBytes_big (by decide), leBytes_big (by decide), leBytes_big (by decide),
      leBytes_small (by decide)]
  have h5 : leBytes 4294967291 = [251, 255, 255, 255] := by
    rw [leBytes_big (by decide), leBytes_big (by decide), leBytes_big (by decide),
      leBytes_small (by decide)]
  have hs : leBytes 5 = [5] := leBytes_small (by decide)
  have w4 : byteWidth 4294967292 = 4 := by rw [← length_leBytes, h4]; rfl
  have w5 : byteWidth 4294967291 = 4 := by rw [← length_leBytes, h5]; rfl
  have ws : byteWidth 5 = 1 := byteWidth_small (by decide)
  have w0 : byteWidth 0 = 1 := byteWidth_small (by decide)
  have e : encode .DM [5, 5, 5, 5, 1, 1, 1, 1, 0] =
      [0, 255, 3, 5, 5, 5, 5, 252, 255, 255, 255, 252, 255, 255, 255, 252, 255, 255, 255,
        252, 255, 255, 255, 251, 255, 255, 255] := by
    simp [encode, Enc.addAll, Enc.add, Enc.gap, Enc.flush, Enc.flushBuf, Verif.Math.subW,
      Enc.bufAt, encodedWidth, h4, h5, hs, w4, w5, ws, w0]
  rw [e]
  decide +kernel

/-- C46 (64 bit StreamVByte) is false of the code: a value that needs three bytes is announced with
four but written with three, because the padding is computed after the value has been shifted out. -/
theorem C46_streamvbyte64_not_lossless :
    decode64? 1 (encode64 [70000] ++ List.replicate 15 7) = some [117510512] ∧
      70000 ≠ 117510512 := by
  have h : leBytes 70000 = [112, 17, 1] := by
    rw [leBytes_big (by decide), leBytes_big (by decide), leBytes_small (by decide)]
  have w : byteWidth 70000 = 3 := by rw [← length_leBytes, h]; rfl
  have w0 : byteWidth 0 = 1 := byteWidth_small (by decide)
  have e : encode64 [70000] = [2, 112, 17, 1] := by
    simp [encode64, encodeGroups64, valueBytes64, requiredWidth64, encodedWidth64, h, w, w0]
  rw [e]
  exact ⟨by decide +kernel, by decide⟩

/-- C46, the part that holds: 64 bit values whose shortest representation has 1, 2, 4 or 8 bytes
round-trip.  Missing: values with 3, 5, 6 or 7 bytes, for which the claim is false
(`C46_streamvbyte64_not_lossless`), and the gap kinds, which the 64 bit decoder does not implement
(it calls the callback for no complete group then, `streamvbyte.h:782-784`). -/
theorem C46_streamvbyte64_roundtrip_partial (xs rest : List Nat)
    (hx : ∀ x ∈ xs, x < 256 ^ 2 ∨ (256 ^ 3 ≤ x ∧ x < 256 ^ 4) ∨ (256 ^ 7 ≤ x ∧ x < 2 ^ 64))
    (hrest : 15 ≤ rest.length) :
    decode64? xs.length (encode64 xs ++ rest) = some xs := by
  have hw : ∀ x ∈ xs, Fits64 x := by
    intro x h
    have lower : ∀ k v, 256 ^ k ≤ v → k < byteWidth v := by
      intro k
      induction k with
      | zero => intro v _; exact byteWidth_pos v
      | succ k ih =>
        intro v hv
        have h256 : 256 ≤ v := by
          have : 256 ^ 1 ≤ 256 ^ (k + 1) := Nat.pow_le_pow_right (by decide) (by omega)
          omega
        rw [byteWidth_big h256]
        have := ih (v / 256) (by
          rw [Nat.le_div_iff_mul_le (by decide), ← Nat.pow_succ]; exact hv)
        omega
    rcases hx x h with h | h | h
    · have h1 := byteWidth_le (v := x) (k := 2) (by decide) h
      have h2 := byteWidth_pos x
      exact ⟨by omega, by omega⟩
    · have h1 := byteWidth_le (v := x) (k := 4) (by decide) h.2
      have h2 := lower 3 x h.1
      exact ⟨by omega, by omega⟩
    · have h1 := byteWidth_le (v := x) (k := 8) (by decide) (by omega)
      have h2 := lower 7 x h.1
      exact ⟨by omega, by omega⟩
  obtain ⟨h1, h2⟩ := roundtrip64_aux xs.length xs rfl hw
  unfold decode64? encode64
  rw [← h1]
  simp only [List.append_assoc, List.drop_left]
  exact h2 _ rest hrest

example : decode64? 5 (encode64 [7, 257, 117440512, 9223372036854775808, 5] ++ List.replicate 15 9) =
    some [7, 257, 117440512, 9223372036854775808, 5] :=
  C46_streamvbyte64_roundtrip_partial [7, 257, 117440512, 9223372036854775808, 5] _
    (by decide +kernel) (by decide)

end Verif.StreamVByte
