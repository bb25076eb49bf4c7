import Verif.Varint.Model
import Verif.StreamVByte.Model

/-!
# Model of neighbourhood compression

Sources: `kaminpar-common/graph_compression/compressed_edges_builder.h` (encoder, abbreviated CEB),
`kaminpar-common/graph_compression/compressed_neighborhoods.h` (decoder, CN),
`kaminpar-common/graph_compression/compressed_neighborhoods_builder.h` (CNB).

`NodeID` is 32 bit, `SignedNodeID` is 64 bit, `EdgeWeight` is a signed `wE`-bit integer.
A neighbour is a pair (node, weight); unweighted neighbours carry the default weight 1.
-/

namespace Verif.Compression

open Verif.Math (subW)
open Verif.Varint
open Verif.StreamVByte

/-- The compile-time options, CN 82-128. -/
structure Cfg where
  interval : Bool
  highDegree : Bool
  svb : Bool
  deriving DecidableEq, Repr

/-- `kHighDegreeThreshold`, CN 91. -/
def highDegreeThreshold : Nat := 10000
/-- `kHighDegreePartLength`, CN 97. -/
def partLength : Nat := 1000
/-- `kIntervalLengthTreshold`, CN 111. -/
def intervalThreshold : Nat := 3
/-- `kStreamVByteThreshold`, CN 126. -/
def svbThreshold : Nat := 3
/-- `kInvalidNodeID`, CEB 39. -/
def invalidNode : Nat := 2 ^ 32 - 1

abbrev Nbr := Nat × Int

/-! ### Encoder -/

/-- `encode_edge_weight`, CEB 393-404: the bytes.  The difference of two non-negative weights cannot
overflow the signed type, so it is computed in `Int`. -/
def encW (hasW : Bool) (wE : Nat) (prev w : Int) : List Nat :=
  if hasW then signedEncode wE (w - prev) else []

/-- `encode_edge_weight`, CEB 402: the new `prev_edge_weight`. -/
def nextW (hasW : Bool) (prev w : Int) : Int := if hasW then w else prev

/-- `encode_edge_weight` for consecutive weights. -/
def encWs (hasW : Bool) (wE : Nat) : Int → List Int → List Nat
  | _, [] => []
  | prev, w :: ws => encW hasW wE prev w ++ encWs hasW wE (nextW hasW prev w) ws

/-- `prev_edge_weight` after encoding consecutive weights. -/
def lastW (hasW : Bool) (prev : Int) (ws : List Int) : Int := ws.foldl (nextW hasW) prev

/-- An interval handed to the callback of `parse_intervals`: `(left, right, length, index)`. -/
abbrev Interval := Nat × Nat × Nat × Nat

/-- The loop of `parse_intervals`, CEB 428-450: `i` is the current index, `len` is `interval_len`,
`prev` is `prev_adjacent_node`, the list is the neighbourhood from index `i` on.  When
`encode_intervals` uses it, its callback only overwrites entries at indices `≤ i`, which the loop
does not read again. -/
def parseLoop (i len prev : Nat) : List Nat → List Interval
  | [] => []
  | a :: rest =>
    if (prev + 1) % 2 ^ 32 ≠ a then parseLoop (i + 1) len a rest
    else if rest.head? = some ((a + 1) % 2 ^ 32) then parseLoop (i + 1) (len + 1) a rest
    else
      (if len + 1 ≥ intervalThreshold then [(a - len, a, len + 1, i - len)] else []) ++
        parseLoop (i + 1) 1 a rest

/-- `parse_intervals`, CEB 420-451. -/
def parseIntervals (nodes : List Nat) : List Interval :=
  if nodes.length < intervalThreshold then []
  else match nodes with
    | [] => []
    | a :: rest => parseLoop 1 1 a rest

/-- `count_intervals`, CEB 454-462. -/
def countIntervals (nb : List Nbr) : Nat := (parseIntervals (nb.map (·.1))).length

/-- The loop CEB 487-501 over the positions of one interval: the entries are overwritten by the
invalid node ID. -/
def markRange (nb : List Nbr) (index len : Nat) : List Nbr :=
  nb.mapIdx fun p x => if index ≤ p ∧ p < index + len then (invalidNode, x.2) else x

/-- State of `encode_intervals` between two callbacks. -/
structure IvState where
  bytes : List Nat
  prevRight : Nat
  prevW : Int
  nb : List Nbr
  remaining : Nat

/-- The callback of `encode_intervals`, CEB 477-503. -/
def ivStep (hasW : Bool) (wE : Nat) (s : IvState) (iv : Interval) : IvState :=
  let (left, right, len, index) := iv
  let ws := ((s.nb.drop index).take len).map (·.2)
  { bytes := s.bytes ++ varintEncode (subW 32 left s.prevRight) ++
      varintEncode (len - intervalThreshold) ++ encWs hasW wE s.prevW ws
    prevRight := (right + 2) % 2 ^ 32
    prevW := lastW hasW s.prevW ws
    nb := markRange s.nb index len
    remaining := subW 32 s.remaining len }

/-- `encode_intervals`, CEB 465-508. -/
def encodeIntervals (hasW : Bool) (wE : Nat) (prevW : Int) (nb : List Nbr) : IvState :=
  let s0 : IvState :=
    { bytes := [], prevRight := 0, prevW := prevW, nb := nb, remaining := nb.length }
  if countIntervals nb > 0 then
    (parseIntervals (nb.map (·.1))).foldl (ivStep hasW wE)
      { s0 with bytes := varintEncode (countIntervals nb - 1) }
  else s0

/-- The varint gap loop, CEB 575-595, over the neighbours that are not marked. -/
def encGaps (hasW : Bool) (wE : Nat) : Nat → Int → List Nbr → List Nat
  | _, _, [] => []
  | prev, pw, (a, w) :: rest =>
    varintEncode (subW 32 (subW 32 a prev) 1) ++ encW hasW wE pw w ++
      encGaps hasW wE a (nextW hasW pw w) rest

/-- `encode_gaps`, CEB 511-597.  `none`: no unmarked neighbour although `degree > 0` (the search
loop would leave the array), or the StreamVByte encoder is created for a number of values different
from the number of values added. -/
def encodeGaps? (c : Cfg) (hasW : Bool) (wE node degree : Nat) (prevW : Int) (nb : List Nbr) :
    Option (List Nat) :=
  if degree = 0 then some []
  else match nb.filter fun x => x.1 ≠ invalidNode with
    | [] => none
    | (a, w) :: rest =>
      let head := signedEncode 64 ((a : Int) - node) ++ encW hasW wE prevW w
      if c.svb ∧ degree - 1 ≥ svbThreshold then
        if rest.length ≠ degree - 1 then none
        else if hasW then
          some (head ++ StreamVByte.encode .D2 (rest.flatMap fun x => [x.1, (x.2 % 2 ^ 32).toNat]))
        else some (head ++ StreamVByte.encode .D1 (rest.map (·.1)))
      else some (head ++ encGaps hasW wE a (nextW hasW prevW w) rest)

/-- `add_edges`, CEB 407-418. -/
def addEdges? (c : Cfg) (hasW : Bool) (wE node : Nat) (nb : List Nbr) : Option (List Nat) :=
  if c.interval then
    let s := encodeIntervals hasW wE 0 nb
    (encodeGaps? c hasW wE node s.remaining s.prevW s.nb).map (s.bytes ++ ·)
  else encodeGaps? c hasW wE node nb.length 0 nb

/-- A little-endian 32 bit store (`*cur_part_ptr = …`, CEB 244-252). -/
def le32 (v : Nat) : List Nat := [v % 256, v / 256 % 256, v / 65536 % 256, v / 16777216 % 256]

/-- `math::div_ceil(degree, kHighDegreePartLength)`, CEB 232 and CN 472. -/
def numParts (degree : Nat) : Nat :=
  degree / partLength + (if degree % partLength = 0 then 0 else 1)

/-- `math::mod_ceil(degree, kHighDegreePartLength)`, CEB 233. -/
def lastPartLength (degree : Nat) : Nat :=
  if degree % partLength = 0 then partLength else degree % partLength

/-- The parts of a high-degree neighbourhood, CEB 232-242. -/
def partsOf (nb : List Nbr) : List (List Nbr) :=
  (List.range (numParts nb.length)).map fun i =>
    (nb.drop (i * partLength)).take
      (if i + 1 = numParts nb.length then lastPartLength nb.length else partLength)

/-- All parts' encodings, or `none` if one is undefined. -/
def encodeParts? (c : Cfg) (hasW : Bool) (wE node : Nat) : List (List Nbr) → Option (List (List Nat))
  | [] => some []
  | p :: ps => do
    let b ← addEdges? c hasW wE node p
    let bs ← encodeParts? c hasW wE node ps
    return b :: bs

/-- The table of part offsets, CEB 244-256: the offset of each part relative to the table, the top
bit tells whether the part has intervals. -/
def partTable (c : Cfg) : Nat → List (List Nbr) → List (List Nat) → List Nat
  | off, p :: ps, b :: bs =>
    le32 ((off % 2 ^ 32) ||| (if c.interval ∧ countIntervals p > 0 then 2 ^ 31 else 0)) ++
      partTable c (off + b.length) ps bs
  | _, _, _ => []

/-- `add`, CEB 187-269, for the already sorted neighbourhood `nb` (`std::sort`, CEB 199-205, yields
some sorted permutation of the given one): the bytes appended.  The offset table is written together
with the parts here, the code fills it in while encoding the parts. -/
def add? (c : Cfg) (hasW : Bool) (wE node : Nat) (nb : List Nbr) : Option (List Nat) :=
  let degree := nb.length
  if degree = 0 then some []
  else
    let split := c.highDegree ∧ degree ≥ highDegreeThreshold
    let header :=
      if c.interval then
        markedEncode degree (decide (¬ split ∧ countIntervals nb > 0))
      else varintEncode degree
    if split then
      (encodeParts? c hasW wE node (partsOf nb)).map fun bs =>
        header ++ partTable c (4 * bs.length) (partsOf nb) bs ++ bs.flatten
    else (addEdges? c hasW wE node nb).map (header ++ ·)

/-! ### Decoder -/

/-- Decoding of one edge weight, `INVOKE_CALLBACK`, CN 27-47; an unweighted graph reports the
default weight 1 (CN 412-416).  Addition in `Int`: signed overflow is undefined, and does not occur
on encoder output. -/
def decW? (hasW : Bool) (wE : Nat) (prev : Int) (data : List Nat) : Option (Int × List Nat) :=
  if hasW then (signedDecode wE data).map fun p => (p.1 + prev, p.2) else some (1, data)

/-- The nodes of one interval, CN 545-553: `n` nodes from `left` on. -/
def decRun? (hasW : Bool) (wE : Nat) : Nat → Nat → Int → List Nat →
    Option (List Nbr × Int × List Nat)
  | 0, _, pw, data => some ([], pw, data)
  | n + 1, left, pw, data => do
    let (w, data) ← decW? hasW wE pw data
    let (out, pw, data) ← decRun? hasW wE n ((left + 1) % 2 ^ 32) (nextW hasW pw w) data
    return ((left, w) :: out, pw, data)

/-- The interval loop, CN 535-558, with `n ≥ 1` intervals left. -/
def decIntervals? (hasW : Bool) (wE : Nat) : Nat → Nat → Nat → Int → List Nat →
    Option (List Nbr × Nat × Int × List Nat)
  | 0, _, remaining, pw, data => some ([], remaining, pw, data)
  | n + 1, prevRight, remaining, pw, data => do
    let (gap, data) ← varintDecode 32 data
    let (lenGap, data) ← varintDecode 32 data
    let left := (gap + prevRight) % 2 ^ 32
    let len := (lenGap + intervalThreshold) % 2 ^ 32
    let (run, pw, data) ← decRun? hasW wE len left pw data
    let (out, remaining, pw, data) ← decIntervals? hasW wE n ((left + (len - 1) + 2) % 2 ^ 32)
      (subW 32 remaining len) pw data
    return (run ++ out, remaining, pw, data)

/-- The varint gap loop, CN 598-606. -/
def decGaps? (hasW : Bool) (wE : Nat) : Nat → Nat → Int → List Nat → Option (List Nbr)
  | 0, _, _, _ => some []
  | n + 1, prev, pw, data => do
    let (gap, data) ← varintDecode 32 data
    let a := (gap + prev + 1) % 2 ^ 32
    let (w, data) ← decW? hasW wE pw data
    let out ← decGaps? hasW wE n a (nextW hasW pw w) data
    return (a, w) :: out

/-- `decode_edges`, CN 515-609, with a callback that never stops; the list collects the callback's
arguments.  In the StreamVByte branch the weight is a 32 bit signed lane (`_mm_extract_epi32`). -/
def decodeEdges? (c : Cfg) (hasW : Bool) (wE node degree : Nat) (hasIntervals : Bool)
    (data : List Nat) : Option (List Nbr) := do
  let (out1, remaining, pw, data) ←
    if c.interval ∧ hasIntervals then do
      let (n, data) ← varintDecode 32 data
      decIntervals? hasW wE (n + 1) 0 degree 0 data
    else some ([], degree, 0, data)
  if c.interval ∧ hasIntervals ∧ remaining = 0 then return out1
  let (gap, data) ← signedDecode 64 data
  let first := ((gap + node) % 2 ^ 32).toNat
  let (w, data) ← decW? hasW wE pw data
  let remaining := subW 32 remaining 1
  if c.svb ∧ remaining ≥ svbThreshold then
    if hasW then
      let ps ← StreamVByte.decodePairs? .D2 (remaining * 2) data
      return out1 ++ (first, w) :: ps.map fun p => (p.1, (BitVec.ofNat 32 p.2).toInt)
    else
      let xs ← StreamVByte.decode? .D1 remaining data
      return out1 ++ (first, w) :: xs.map fun x => (x, 1)
  else
    let out ← decGaps? hasW wE remaining first (nextW hasW pw w) data
    return out1 ++ (first, w) :: out

/-- One part of a high-degree neighbourhood, CN 476-501. -/
def decodePart? (c : Cfg) (hasW : Bool) (wE node degree numParts part : Nat) (nodeData : List Nat) :
    Option (List Nbr) := do
  let raw ← load? 4 (nodeData.drop (4 * part))
  let hasIntervals := decide (c.interval ∧ raw / 2 ^ 31 % 2 = 1)
  let offset := if c.interval then raw % 2 ^ 31 else raw
  let partDegree := if part + 1 = numParts then degree - part * partLength else partLength
  decodeEdges? c hasW wE node partDegree hasIntervals (nodeData.drop offset)

/-- The sequential loop of `decode_parts`, CN 503-511. -/
def decodeParts? (c : Cfg) (hasW : Bool) (wE node degree numParts : Nat) (nodeData : List Nat) :
    List Nat → Option (List Nbr)
  | [] => some []
  | part :: parts => do
    let a ← decodePart? c hasW wE node degree numParts part nodeData
    let b ← decodeParts? c hasW wE node degree numParts nodeData parts
    return a ++ b

/-- The header, CN 440-449: degree and interval flag. -/
def decodeHeader? (c : Cfg) (data : List Nat) : Option ((Nat × Bool) × List Nat) :=
  if c.interval then markedDecode 32 data
  else (varintDecode 32 data).map fun p => ((p.1, false), p.2)

/-- `decode`, CN 430-468, for a non-empty encoding. -/
def decodeNode? (c : Cfg) (hasW : Bool) (wE node : Nat) (nodeData : List Nat) :
    Option (List Nbr) := do
  let ((degree, hasIntervals), data) ← decodeHeader? c nodeData
  if c.highDegree ∧ degree ≥ highDegreeThreshold then
    decodeParts? c hasW wE node degree (numParts degree) data (List.range (numParts degree))
  else decodeEdges? c hasW wE node degree hasIntervals data

/-! ### The whole graph -/

/-- `CompressedNeighborhoods`: offsets of the nodes and the compressed edge array. -/
structure Compressed where
  nodes : List Nat
  bytes : List Nat

/-- Adding the nodes `node, node+1, …` one after the other, CNB 55-60: offsets and bytes, `off` is
`current_offset()`. -/
def addNodes? (c : Cfg) (hasW : Bool) (wE : Nat) : Nat → Nat → List (List Nbr) →
    Option (List Nat × List Nat)
  | _, _, [] => some ([], [])
  | node, off, nb :: nbs => do
    let b ← add? c hasW wE node nb
    let (offs, bs) ← addNodes? c hasW wE (node + 1) (off + b.length) nbs
    return (off :: offs, b ++ bs)

/-- `CompressedNeighborhoodsBuilder`: `add` for every node, then `build`, CNB 68-100: the size is
appended to the offsets, 15 bytes are appended to the data for StreamVByte. -/
def compress? (c : Cfg) (hasW : Bool) (wE : Nat) (g : List (List Nbr)) : Option Compressed := do
  let (offs, bs) ← addNodes? c hasW wE 0 0 g
  return { nodes := offs ++ [bs.length], bytes := bs ++ (if c.svb then List.replicate 15 0 else []) }

/-- `adjacent_nodes(node, callback)`, CN 250-252 and 430-436: the neighbours in callback order. -/
def adjacentNodes? (c : Cfg) (hasW : Bool) (wE : Nat) (cg : Compressed) (node : Nat) :
    Option (List Nbr) := do
  let a ← cg.nodes[node]?
  let b ← cg.nodes[node + 1]?
  if a = b then return []
  decodeNode? c hasW wE node (cg.bytes.drop a)

/-- `degree(node)`, CN 230-244. -/
def degree? (c : Cfg) (cg : Compressed) (node : Nat) : Option Nat := do
  let a ← cg.nodes[node]?
  let b ← cg.nodes[node + 1]?
  if a = b then return 0
  let (h, _) ← decodeHeader? c (cg.bytes.drop a)
  return h.1

end Verif.Compression
