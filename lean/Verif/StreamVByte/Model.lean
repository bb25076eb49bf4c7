import Verif.Math.Model
import Verif.Varint.Model

/-!
# Model of the StreamVByte codec

Source: `kaminpar-common/graph_compression/streamvbyte.h` (x86-64 decoder).

Memory is a list of bytes, pointers are suffixes of it.  `none` is the distinct outcome of reading
past the end of memory (the decoder loads 16 bytes at once).
-/

namespace Verif.StreamVByte

open Verif.Math (subW)
open Verif.Varint (loadLE)

/-- `DifferentialCodingKind`, `streamvbyte.h:27-33`. -/
inductive Kind | NONE | D1 | D2 | DM | D4
  deriving DecidableEq, Repr

/-- `math::byte_width`, `kaminpar-common/math.h:112-119` (`std::bit_width i = log2 i + 1`). -/
def byteWidth (i : Nat) : Nat :=
  if i = 0 then 1 else (i.log2 + 1) / 8 + (if (i.log2 + 1) % 8 ≠ 0 then 1 else 0)

/-- The `do … while` byte loop, `streamvbyte.h:183-186`. -/
def leBytes (value : Nat) : List Nat :=
  (value % 256) :: (if value / 256 > 0 then leBytes (value / 256) else [])
termination_by value
decreasing_by omega

/-! ### Encoder, 32 bit -/

/-- The encoder object, `streamvbyte.h:157-171`.  `ctrl` and `data` are the bytes written so far
through `_control_bytes_ptr` and `_data_ptr`; `buf` is the used prefix of `_buffer` (the unused
entries are zero). -/
structure Enc where
  ctrl : List Nat := []
  data : List Nat := []
  buf : List Nat := []
  prev : Nat := 0
  prev2 : Nat := 0
  prev3 : Nat := 0
  prev4 : Nat := 0
  prevMax : Nat := 0
  nextMax : Nat := 0
  deriving Repr

/-- `_buffer[i]` (zero when not filled, `streamvbyte.h:105` and `198`). -/
def Enc.bufAt (s : Enc) (i : Nat) : Nat := s.buf[i]?.getD 0

/-- `encoded_byte_width` for 32 bit, `streamvbyte.h:72-75`. -/
def encodedWidth (v : Nat) : Nat := byteWidth v - 1

/-- `unchecked_flush`, `streamvbyte.h:174-199` (32 bit): one control byte, then the bytes of the
buffered values. -/
def Enc.flushBuf (s : Enc) : Enc :=
  { s with
    ctrl := s.ctrl ++ [(encodedWidth (s.bufAt 3) <<< 6) ||| (encodedWidth (s.bufAt 2) <<< 4) |||
      (encodedWidth (s.bufAt 1) <<< 2) ||| encodedWidth (s.bufAt 0)]
    data := s.data ++ (s.buf.map leBytes).flatten
    buf := [] }

/-- The gap computation at the start of `add`, `streamvbyte.h:109-131`: the stored value and the
updated history. -/
def Enc.gap (k : Kind) (s : Enc) (value : Nat) : Nat × Enc :=
  match k with
  | .NONE => (value, s)
  | .D1 => (subW 32 value s.prev, { s with prev := value })
  | .D2 => (subW 32 value s.prev2, { s with prev2 := s.prev, prev := value })
  | .DM => (subW 32 value s.prevMax, { s with nextMax := max s.prevMax value })
  | .D4 => (subW 32 value s.prev4,
      { s with prev4 := s.prev3, prev3 := s.prev2, prev2 := s.prev, prev := value })

/-- `add`, `streamvbyte.h:108-147`: new state and the returned number of bytes. -/
def Enc.add (k : Kind) (s : Enc) (value : Nat) : Enc × Nat :=
  let g := s.gap k value
  let v := g.1
  let s1 := { g.2 with buf := s.buf ++ [v] }
  if s.buf.length = 3 then
    let s2 := if k = .DM then { s1 with prevMax := s1.nextMax, nextMax := 0 } else s1
    (s2.flushBuf, byteWidth v)
  else (s1, byteWidth v + (if s.buf.length = 0 then 1 else 0))

/-- `flush`, `streamvbyte.h:149-155`. -/
def Enc.flush (s : Enc) : Enc := if s.buf.length > 0 then s.flushBuf else s

/-- Adding all values one after the other, then `flush`. -/
def Enc.addAll (k : Kind) (s : Enc) (xs : List Nat) : Enc := xs.foldl (fun s x => (s.add k x).1) s

/-- The memory written by an encoder constructed for `xs.length` values (`streamvbyte.h:94-99`:
`div_ceil(num_values, 4)` control bytes followed by the data) after adding `xs` and flushing. -/
def encode (k : Kind) (xs : List Nat) : List Nat :=
  let s := (Enc.addAll k {} xs).flush
  s.ctrl ++ s.data

/-- The sum of the return values of `add` (used by the caller to advance its own pointer,
`compressed_edges_builder.h:550-551`, `570`). -/
def returnedBytes (k : Kind) : Enc → List Nat → Nat
  | _, [] => 0
  | s, x :: xs => (s.add k x).2 + returnedBytes k (s.add k x).1 xs

/-! ### Decoder, 32 bit -/

/-- The four lengths selected by a control byte, `streamvbyte.h:229-230`, `273-274`. -/
def lengths (c : Nat) : List Nat := [0, 1, 2, 3].map fun i => ((c >>> (2 * i)) &&& 3) + 1

/-- `kLengthTable[c]` for 32 bit, `streamvbyte.h:225-233`. -/
def lengthTable (c : Nat) : Nat := (lengths c).sum

/-- One row of the shuffle table, `streamvbyte.h:269-286` (lane width `W = 4`) and `305-322`
(`W = 8`): consecutive source bytes, then `0xFF`, for each value. -/
def shuffleEntries (W : Nat) : Nat → List Nat → List Nat
  | _, [] => []
  | byte, l :: ls =>
    (List.range l).map (byte + ·) ++ List.replicate (W - l) 255 ++ shuffleEntries W (byte + l) ls

/-- `_mm_loadu_si128`: 16 bytes; `none` if they are not all readable. -/
def load16? (ptr : List Nat) : Option (List Nat) :=
  if 16 ≤ ptr.length then some (ptr.take 16) else none

/-- `_mm_shuffle_epi8`: a mask byte with the top bit set gives zero, otherwise it selects the source
byte given by its low four bits. -/
def shuffleBytes (data mask : List Nat) : List Nat :=
  mask.map fun m => if m ≥ 128 then 0 else data[m % 16]?.getD 0

/-- A 128 bit register as four 32 bit lanes. -/
structure Lanes where
  l0 : Nat := 0
  l1 : Nat := 0
  l2 : Nat := 0
  l3 : Nat := 0
  deriving DecidableEq, Repr

/-- Reinterpretation of 16 bytes as four little-endian lanes. -/
def toLanes (b : List Nat) : Lanes :=
  ⟨loadLE (b.take 4), loadLE ((b.drop 4).take 4), loadLE ((b.drop 8).take 4),
    loadLE ((b.drop 12).take 4)⟩

/-- `_mm_add_epi32` -/
def Lanes.add (a b : Lanes) : Lanes :=
  ⟨(a.l0 + b.l0) % 2 ^ 32, (a.l1 + b.l1) % 2 ^ 32, (a.l2 + b.l2) % 2 ^ 32, (a.l3 + b.l3) % 2 ^ 32⟩

/-- `_mm_slli_si128(x, 8)` -/
def Lanes.slli8 (a : Lanes) : Lanes := ⟨0, 0, a.l0, a.l1⟩

/-- `_mm_slli_si128(x, 4)` -/
def Lanes.slli4 (a : Lanes) : Lanes := ⟨0, a.l0, a.l1, a.l2⟩

/-- `decode_gaps`, `streamvbyte.h:365-388`: the new `prev`. -/
def decodeGaps (k : Kind) (prev data : Lanes) : Lanes :=
  match k with
  | .NONE => data
  | .D1 =>
    let temp := data.slli8.add data
    (temp.slli4.add temp).add ⟨prev.l3, prev.l3, prev.l3, prev.l3⟩
  | .D2 => (data.slli8.add data).add ⟨prev.l2, prev.l3, prev.l2, prev.l3⟩
  | .DM => data.add ⟨prev.l3, prev.l3, prev.l3, prev.l3⟩
  | .D4 => data.add prev

/-- Load, shuffle and gap decoding of one group, `streamvbyte.h:391-401` and the same lines in the
tail cases. -/
def decodeGroup? (k : Kind) (prev : Lanes) (c : Nat) (dataPtr : List Nat) : Option Lanes :=
  (load16? dataPtr).map fun d =>
    decodeGaps k prev (toLanes (shuffleBytes d (shuffleEntries 4 0 (lengths c))))

/-- The tail, `streamvbyte.h:465-538`: `r = num_values % 4` further values. -/
def decodeTail? (k : Kind) (r : Nat) (prev : Lanes) (ctrlPtr dataPtr : List Nat) :
    Option (List Nat) :=
  if r = 0 then some []
  else match ctrlPtr with
    | [] => none
    | c :: _ => (decodeGroup? k prev c dataPtr).map fun p => [p.l0, p.l1, p.l2, p.l3].take r

/-- The main loop, `streamvbyte.h:390-440`, followed by the tail; the list collects the arguments of
the callback. -/
def decodeLoop? (k : Kind) (r : Nat) : Nat → Lanes → List Nat → List Nat → Option (List Nat)
  | 0, prev, ctrlPtr, dataPtr => decodeTail? k r prev ctrlPtr dataPtr
  | _ + 1, _, [], _ => none
  | n + 1, prev, c :: ctrlPtr, dataPtr =>
    match decodeGroup? k prev c dataPtr with
    | none => none
    | some p =>
      (decodeLoop? k r n p ctrlPtr (dataPtr.drop (lengthTable c))).map
        fun out => p.l0 :: p.l1 :: p.l2 :: p.l3 :: out

/-- `StreamVByteDecoder(num_values, ptr).decode(l)` without pairs, `streamvbyte.h:333-345`,
`353-540`, with a callback that never stops; the result lists the callback arguments. -/
def decode? (k : Kind) (n : Nat) (ptr : List Nat) : Option (List Nat) :=
  decodeLoop? k (n % 4) (n / 4) {} ptr (ptr.drop (n / 4 + (if n % 4 ≠ 0 then 1 else 0)))

/-- Grouping of consecutive callback arguments into pairs (`l(v0, v1); l(v2, v3)`,
`streamvbyte.h:404-406`). -/
def pairUp : List Nat → List (Nat × Nat)
  | a :: b :: rest => (a, b) :: pairUp rest
  | _ => []

/-- The decoder with `PassPairs`, `streamvbyte.h:442-463`: the tail is decoded only if exactly two
values remain. -/
def decodePairs? (k : Kind) (n : Nat) (ptr : List Nat) : Option (List (Nat × Nat)) :=
  (decodeLoop? k (if n % 4 = 2 then 2 else 0) (n / 4) {} ptr
    (ptr.drop (n / 4 + (if n % 4 ≠ 0 then 1 else 0)))).map pairUp

/-! ### 64 bit, without gaps -/

/-- `required_byte_width` for 64 bit, `streamvbyte.h:46-66` (`none`: unreachable). -/
def requiredWidth64 (v : Nat) : Nat :=
  if byteWidth v ≤ 2 then byteWidth v else if byteWidth v ≤ 4 then 4 else 8

/-- `encoded_byte_width` for 64 bit, `streamvbyte.h:75-87`. -/
def encodedWidth64 (v : Nat) : Nat :=
  if requiredWidth64 v = 1 then 0 else if requiredWidth64 v = 2 then 1
  else if requiredWidth64 v = 4 then 2 else 3

/-- The bytes of one value for 64 bit, `streamvbyte.h:181-194`.  After the byte loop the variable
`value` is zero, and it is this zero for which the number of padding bytes is computed. -/
def valueBytes64 (value : Nat) : List Nat :=
  leBytes value ++ List.replicate (requiredWidth64 0 - byteWidth 0) 0

/-- The 64 bit encoder without gaps: groups of four. -/
def encodeGroups64 : List Nat → List Nat × List Nat
  | a :: b :: c :: d :: rest =>
    let r := encodeGroups64 rest
    (((encodedWidth64 d <<< 6) ||| (encodedWidth64 c <<< 4) ||| (encodedWidth64 b <<< 2) |||
      encodedWidth64 a) :: r.1,
     valueBytes64 a ++ valueBytes64 b ++ valueBytes64 c ++ valueBytes64 d ++ r.2)
  | [a, b, c] => ([(encodedWidth64 0 <<< 6) ||| (encodedWidth64 c <<< 4) |||
      (encodedWidth64 b <<< 2) ||| encodedWidth64 a],
      valueBytes64 a ++ valueBytes64 b ++ valueBytes64 c)
  | [a, b] => ([(encodedWidth64 0 <<< 6) ||| (encodedWidth64 0 <<< 4) |||
      (encodedWidth64 b <<< 2) ||| encodedWidth64 a], valueBytes64 a ++ valueBytes64 b)
  | [a] => ([(encodedWidth64 0 <<< 6) ||| (encodedWidth64 0 <<< 4) |||
      (encodedWidth64 0 <<< 2) ||| encodedWidth64 a], valueBytes64 a)
  | [] => ([], [])

/-- Memory written by the 64 bit encoder with `GapKind = NONE`. -/
def encode64 (xs : List Nat) : List Nat := (encodeGroups64 xs).1 ++ (encodeGroups64 xs).2

/-- `actual_length`, `streamvbyte.h:235-248`. -/
def actualLength64 (h : Nat) : Nat := if h = 0 then 1 else if h = 1 then 2 else if h = 2 then 4 else 8

/-- The two lengths selected by half a control byte, `streamvbyte.h:253-257`. -/
def lengths64 (c : Nat) : List Nat := [0, 1].map fun i => actualLength64 ((c >>> (2 * i)) &&& 3)

/-- Decoding of two 64 bit values from one 16 byte load, `streamvbyte.h:744-757`. -/
def decodeHalf64? (c : Nat) (dataPtr : List Nat) : Option (Nat × Nat) :=
  (load16? dataPtr).map fun d =>
    let b := shuffleBytes d (shuffleEntries 8 0 (lengths64 c))
    (loadLE (b.take 8), loadLE ((b.drop 8).take 8))

/-- `decode64` with `GapKind = NONE`, `streamvbyte.h:736-870`. -/
def decodeLoop64? (r : Nat) : Nat → List Nat → List Nat → Option (List Nat)
  | 0, ctrlPtr, dataPtr =>
    if r = 0 then some []
    else match ctrlPtr with
      | [] => none
      | c :: _ => do
        let p ← decodeHalf64? (c &&& 15) dataPtr
        if r = 1 then return [p.1]
        if r = 2 then return [p.1, p.2]
        let q ← decodeHalf64? (c >>> 4) (dataPtr.drop (lengths64 (c &&& 15)).sum)
        return [p.1, p.2, q.1]
  | _ + 1, [], _ => none
  | n + 1, c :: ctrlPtr, dataPtr => do
    let dataPtr2 := dataPtr.drop (lengths64 (c &&& 15)).sum
    let p ← decodeHalf64? (c &&& 15) dataPtr
    let q ← decodeHalf64? (c >>> 4) dataPtr2
    let out ← decodeLoop64? r n ctrlPtr (dataPtr2.drop (lengths64 (c >>> 4)).sum)
    return p.1 :: p.2 :: q.1 :: q.2 :: out

/-- `StreamVByteDecoder<uint64_t>(num_values, ptr).decode(l)`. -/
def decode64? (n : Nat) (ptr : List Nat) : Option (List Nat) :=
  decodeLoop64? (n % 4) (n / 4) ptr (ptr.drop (n / 4 + (if n % 4 ≠ 0 then 1 else 0)))

end Verif.StreamVByte
