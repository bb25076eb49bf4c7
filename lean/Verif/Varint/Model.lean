/-!
# Model of the variable-length integer codec

Source: `kaminpar-common/graph_compression/varint.h`.

A byte is a natural number below 256, memory is a list of bytes, an encoder returns the bytes it
writes, a decoder returns the value and the remaining bytes.  `none` is the distinct outcome of
reading past the end of the given memory or of a shift by at least the type width (undefined).
`w` is the width in bits of the integer type.
-/

namespace Verif.Varint

/-- `varint_max_length<Int>()`, `varint.h:27-29`; `w = sizeof(Int) * 8`. -/
def varintMaxLength (w : Nat) : Nat := w / 7 + 1

/-- `varint_length`, `varint.h:38-47`. -/
def varintLength (i : Nat) : Nat :=
  if i > 127 then 1 + varintLength (i >>> 7) else 1
termination_by i
decreasing_by rw [Nat.shiftRight_eq_div_pow]; omega

/-- `varint_encode`, `varint.h:57-73` and `83-95` (the bytes written). -/
def varintEncode (i : Nat) : List Nat :=
  if i > 127 then ((i &&& 127) ||| 128) :: varintEncode (i >>> 7) else [i &&& 127]
termination_by i
decreasing_by rw [Nat.shiftRight_eq_div_pow]; omega

/-- The loop of `varint_decode_loop`, `varint.h:137-149` (same loop in `varint_decode`,
`varint.h:108-120`, and from shift 6 in `marked_varint_decode`, `varint.h:445-457`). -/
def decodeLoop (w : Nat) : (shift value : Nat) → List Nat → Option (Nat × List Nat)
  | _, _, [] => none
  | shift, value, octet :: rest =>
    if shift ≥ w then none
    else if octet &&& 128 = 0 then some (value ||| ((octet <<< shift) % 2 ^ w), rest)
    else decodeLoop w (shift + 7) (value ||| (((octet &&& 127) <<< shift) % 2 ^ w)) rest

/-- `varint_decode_loop`, `varint.h:133-152`. -/
def varintDecode (w : Nat) (data : List Nat) : Option (Nat × List Nat) := decodeLoop w 0 0 data

/-- `marked_varint_length`, `varint.h:321-330`. -/
def markedLength (i : Nat) : Nat := if i >>> 6 > 0 then 1 + varintLength (i >>> 6) else 1

/-- `marked_varint_encode`, `varint.h:340-357` and `367-386`. -/
def markedEncode (i : Nat) (marked : Bool) : List Nat :=
  let first := (i &&& 63) ||| (if marked then 64 else 0)
  let i' := i >>> 6
  if i' = 0 then [first] else (first ||| 128) :: varintEncode i'

/-- `marked_varint_decode`, `varint.h:395-423` and `433-461`. -/
def markedDecode (w : Nat) : List Nat → Option ((Nat × Bool) × List Nat)
  | [] => none
  | first :: rest =>
    let isCont := first &&& 128 ≠ 0
    let isMarked := decide (first &&& 64 ≠ 0)
    let result := first &&& 63
    if isCont then
      (decodeLoop w 6 result rest).map fun p => ((p.1, isMarked), p.2)
    else some ((result, isMarked), rest)

/-- `zigzag_encode`, `varint.h:469-471`: arithmetic shift by the width minus one, xor, shift left. -/
def zigzagEncode {w : Nat} (i : BitVec w) : BitVec w := (i.sshiftRight (w - 1)) ^^^ (i <<< 1)

/-- `zigzag_decode`, `varint.h:479-481`. -/
def zigzagDecode {w : Nat} (i : BitVec w) : BitVec w := (i >>> 1) ^^^ (-(i &&& 1#w))

/-- `signed_varint_encode`, `varint.h:502-516`, of a `w`-bit signed integer. -/
def signedEncode (w : Nat) (i : Int) : List Nat :=
  varintEncode (zigzagEncode (BitVec.ofInt w i)).toNat

/-- `signed_varint_length`, `varint.h:490-492`. -/
def signedLength (w : Nat) (i : Int) : Nat :=
  varintLength (zigzagEncode (BitVec.ofInt w i)).toNat

/-- `signed_varint_decode`, `varint.h:525-539`. -/
def signedDecode (w : Nat) (data : List Nat) : Option (Int × List Nat) :=
  (varintDecode w data).map fun p => ((zigzagDecode (BitVec.ofNat w p.1)).toInt, p.2)

/-! ### The BMI2 fast path -/

/-- `_pext_u32` / `_pext_u64` (Intel intrinsic): gathers the bits of `x` selected by `mask`. -/
def pext : (bits x mask : Nat) → Nat
  | 0, _, _ => 0
  | n + 1, x, m =>
    if m % 2 = 1 then x % 2 + 2 * pext n (x / 2) (m / 2) else pext n (x / 2) (m / 2)

/-- Little-endian load of the bytes at the pointer. -/
def loadLE : List Nat → Nat
  | [] => 0
  | b :: bs => b + 256 * loadLE bs

/-- Little-endian load of `k` bytes; `none` if they are not all readable. -/
def load? (k : Nat) (data : List Nat) : Option Nat :=
  if k ≤ data.length then some (loadLE (data.take k)) else none

/-- `data_ptr[i]` -/
def byte? (data : List Nat) (i : Nat) : Option Nat := data[i]?

/-- `varint_decode_pext_unrolled<uint32_t>`, `varint.h:162-197`. -/
def pextDecode32 (data : List Nat) : Option (Nat × List Nat) := do
  let b0 ← byte? data 0
  if b0 &&& 128 = 0 then return (b0 &&& 127, data.drop 1)
  let b1 ← byte? data 1
  if b1 &&& 128 = 0 then return (pext 32 (← load? 4 data) 0x7F7F, data.drop 2)
  let b2 ← byte? data 2
  if b2 &&& 128 = 0 then return (pext 32 (← load? 4 data) 0x7F7F7F, data.drop 3)
  let b3 ← byte? data 3
  if b3 &&& 128 = 0 then return (pext 32 (← load? 4 data) 0x7F7F7F7F, data.drop 4)
  return (pext 64 (← load? 8 data) 0x7F7F7F7F7F % 2 ^ 32, data.drop 5)

/-- `varint_decode_pext_unrolled<uint64_t>`, `varint.h:198-269`. -/
def pextDecode64 (data : List Nat) : Option (Nat × List Nat) := do
  let b0 ← byte? data 0
  if b0 &&& 128 = 0 then return (b0 &&& 127, data.drop 1)
  let b1 ← byte? data 1
  if b1 &&& 128 = 0 then return (pext 32 (← load? 4 data) 0x7F7F, data.drop 2)
  let b2 ← byte? data 2
  if b2 &&& 128 = 0 then return (pext 32 (← load? 4 data) 0x7F7F7F, data.drop 3)
  let b3 ← byte? data 3
  if b3 &&& 128 = 0 then return (pext 32 (← load? 4 data) 0x7F7F7F7F, data.drop 4)
  let b4 ← byte? data 4
  if b4 &&& 128 = 0 then return (pext 64 (← load? 8 data) 0x7F7F7F7F7F, data.drop 5)
  let b5 ← byte? data 5
  if b5 &&& 128 = 0 then return (pext 64 (← load? 8 data) 0x7F7F7F7F7F7F, data.drop 6)
  let b6 ← byte? data 6
  if b6 &&& 128 = 0 then return (pext 64 (← load? 8 data) 0x7F7F7F7F7F7F7F, data.drop 7)
  let b7 ← byte? data 7
  if b7 &&& 128 = 0 then return (pext 64 (← load? 8 data) 0x7F7F7F7F7F7F7F7F, data.drop 8)
  let b8 ← byte? data 8
  if b8 &&& 128 = 0 then
    return (pext 64 (← load? 8 data) 0x7F7F7F7F7F7F7F7F ||| ((b8 &&& 127) <<< 56), data.drop 9)
  let b9 ← byte? data 9
  return (pext 64 (← load? 8 data) 0x7F7F7F7F7F7F7F7F ||| ((b8 &&& 127) <<< 56) |||
    ((b9 <<< 63) % 2 ^ 64), data.drop 10)

end Verif.Varint
