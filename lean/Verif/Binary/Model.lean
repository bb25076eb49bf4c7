import Verif.CsrGraph.Model
import Verif.Permute.Model
import Verif.CompactArray.Model

/-!
# Model of the binary graph formats

Sources: `apps/io/binary_util.h` (BU), `apps/io/shm_parhip_parser.cc` (PP) and
`apps/io/shm_compressed_graph_binary.cc` (CB), on a little-endian machine.  Not modelled: errors of the operating
system, misaligned accesses (the arrays of a ParHIP file are not aligned for 64-bit types).
-/

namespace Verif.Binary
open Verif.Math Verif.CsrGraph

/-- How a call may end other than by returning: an error message and `std::exit`, or undefined behaviour. -/
inductive Fault
  | exit
  | undefined
deriving DecidableEq, Repr

abbrev Res := Except Fault

/-- The build options for the widths of the types (`kaminpar.h:20-52`): 64 bits or 32 bits. -/
structure Build where
  n64 : Bool
  e64 : Bool
  nw64 : Bool
  ew64 : Bool
deriving DecidableEq, Repr

/-- The number of bytes of a type. -/
def sz (b : Bool) : Nat := if b then 8 else 4

/-! ### Bytes -/

/-- The `k` bytes of an integer in memory. -/
def le : Nat → Nat → List Nat
  | 0, _ => []
  | k + 1, x => x % 256 :: le k (x / 256)

/-- The integer that consists of the given bytes. -/
def ofLe : List Nat → Nat
  | [] => 0
  | b :: l => b + 256 * ofLe l

/-- The unsigned integer with the bits of a signed one. -/
def bits (k : Nat) (x : Int) : Nat := (x % 2 ^ (8 * k)).toNat

/-- The signed integer with the given bits. -/
def signed (k x : Nat) : Int := if x < 2 ^ (8 * k - 1) then x else (x : Int) - 2 ^ (8 * k)

/-- The file mapped to memory, BU 38-58, for the page size `page`. -/
structure Mapped where
  file : List Nat
  page : Nat

/-- The constructor of `BinaryReader`, BU 38-58: files of length 0 cannot be mapped; the exception leads to
`std::exit`, PP 218-221. -/
def Mapped.open? (page : Nat) (file : List Nat) : Res Mapped :=
  if file = [] then .error .exit else .ok ⟨file, page⟩

/-- One byte of the mapping: the bytes behind the end of the file up to the end of the page are zero, `mmap(2)`. -/
def Mapped.byte (m : Mapped) (p : Nat) : Res Nat :=
  match m.file[p]? with
  | some b => .ok b
  | none => if p < m.page * ((m.file.length + m.page - 1) / m.page) then .ok 0 else .error .undefined

/-- `read<T>` with `sizeof(T) = k`, BU 65-67, and an access through `fetch<T>`, BU 69-71. -/
def Mapped.int (m : Mapped) (k p : Nat) : Res Nat := do
  let l ← (List.range k).mapM fun i => m.byte (p + i)
  return ofLe l

/-- The loop of PP 150-155 (its iterations are independent): `len` integers of `k` bytes. -/
def Mapped.ints (m : Mapped) (k p len : Nat) : Res (List Nat) :=
  (List.range len).mapM fun i => m.int k (p + k * i)

/-! ### The ParHIP format -/

/-- `ParHIPHeader`, PP 64-71. -/
structure Header where
  hasEw : Bool
  hasNw : Bool
  e64 : Bool
  n64 : Bool
  nw64 : Bool
  ew64 : Bool
  n : Nat
  m : Nat
deriving DecidableEq, Repr

/-- `version`, PP 45-64. -/
def version (b : Build) (hasEw hasNw : Bool) : Nat :=
  let flag (f : Bool) (shift : Nat) : Nat := (if f then 0 else 1) <<< shift
  flag b.ew64 5 ||| flag b.nw64 4 ||| flag b.n64 3 ||| flag b.e64 2 ||| flag hasNw 1 ||| flag hasEw 0

/-- The constructor, PP 73-87. -/
def Header.ofVersion (version n m : Nat) : Header :=
  { hasEw := version &&& 1 = 0, hasNw := version &&& 2 = 0, e64 := version &&& 4 = 0, n64 := version &&& 8 = 0
    nw64 := version &&& 16 = 0, ew64 := version &&& 32 = 0, n := n, m := m }

/-- `parse`, PP 38-43. -/
def Header.parse (mem : Mapped) : Res Header := do
  let v ← mem.int 8 0
  let n ← mem.int 8 8
  let m ← mem.int 8 16
  return .ofVersion v n m

/-- Arithmetic with `std::size_t`. -/
def word (x : Nat) : Nat := x % 2 ^ 64

/-- PP 93-95. -/
def Header.edgesOffset (h : Header) : Nat := word (24 + (h.n + 1) * sz h.e64)
/-- PP 97-99. -/
def Header.nwOffset (h : Header) : Nat := word (24 + (h.n + 1) * sz h.e64 + h.m * sz h.n64)
/-- PP 101-104. -/
def Header.ewOffset (h : Header) : Nat :=
  word (24 + (h.n + 1) * sz h.e64 + h.m * sz h.n64 + if h.hasNw then h.n * sz h.nw64 else 0)

/-- `map_edge_offset`, PP 106-108: the difference is computed with `std::size_t`, the result is an `EdgeID`. -/
def Header.mapOffset (h : Header) (b : Build) (offset : Nat) : Nat :=
  subW 64 offset h.edgesOffset / sz h.n64 % 2 ^ (8 * sz b.e64)

/-- `validate`, PP 110-132. -/
def Header.validate (h : Header) (b : Build) : Res Unit :=
  if h.n64 && !b.n64 then .error .exit
  else if h.e64 && !b.e64 then .error .exit
  else if h.hasNw && h.nw64 && !b.nw64 then .error .exit
  else if h.hasEw && h.ew64 && !b.ew64 then .error .exit
  else .ok ()

/-- `read` with `upcast`, PP 141-173: unsigned values. -/
def readIds (b64 h64 : Bool) (mem : Mapped) (off len : Nat) : Res (List Nat) :=
  if !h64 && b64 then mem.ints 4 off len else mem.ints (sz b64) off len

/-- `read` with `upcast`, PP 141-173: signed values; 32-bit values are read as `std::uint32_t` if they are
extended. -/
def readWeights (b64 h64 : Bool) (mem : Mapped) (off len : Nat) : Res (List Int) :=
  if !h64 && b64 then do
    let l ← mem.ints 4 off len
    return l.map Int.ofNat
  else do
    let l ← mem.ints (sz b64) off len
    return l.map (signed (sz b64))

/-- The arrays of a file. -/
structure Arrays where
  nodes : List Nat
  edges : List Nat
  nw : List Int
  ew : List Int
deriving DecidableEq, Repr

/-- `parhip::csr_read`, PP 180-222, up to the constructor of the graph, which is `build` of the area `CsrGraph`. -/
def csrRead (b : Build) (page : Nat) (file : List Nat) : Res Arrays := do
  let mem ← Mapped.open? page file
  let h ← Header.parse mem
  h.validate b
  let nodes ← readIds b.e64 h.e64 mem 24 (word (h.n + 1))
  let edges ← readIds b.n64 h.n64 mem h.edgesOffset h.m
  let nw ← (if h.hasNw then readWeights b.nw64 h.nw64 mem h.nwOffset h.n else .ok [])
  let ew ← (if h.hasEw then readWeights b.ew64 h.ew64 mem h.ewOffset h.m else .ok [])
  return { nodes := nodes.map (h.mapOffset b), edges := edges, nw := nw, ew := ew }

/-- A `StaticArray` with the given elements. -/
def arr {α : Type} (d : α) (l : List α) : Arr α := .owned (fun i => l.getD i d) l.length

/-- The elements of a `StaticArray`. -/
def elems {α : Type} (a : Arr α) : List α := (List.range a.size).map a.data

/-- `parhip::write`, PP 539-575.  `num_total_nodes` is a `NodeID`, the offsets are `EdgeID`s. -/
def write (b : Build) (g : G) : List Nat :=
  let total := (g.n + 1) % 2 ^ (8 * sz b.n64)
  let base := word (24 + total * sz b.e64) % 2 ^ (8 * sz b.e64)
  le 8 (version b g.isEdgeWeighted g.isNodeWeighted) ++ le 8 g.n ++ le 8 g.m ++
    ((List.range total).map fun u =>
      word (base + g.nodes.data u * sz b.n64) % 2 ^ (8 * sz b.e64)).flatMap (le (sz b.e64)) ++
    (elems g.edges).flatMap (le (sz b.n64)) ++
    (if g.isNodeWeighted then (elems g.nw).flatMap fun x => le (sz b.nw64) (bits (sz b.nw64) x) else []) ++
    (if g.isEdgeWeighted then (elems g.ew).flatMap fun x => le (sz b.ew64) (bits (sz b.ew64) x) else [])

/-! ### Reading with a node ordering -/

/-- PP 321-338: the copy of the edges of one node. -/
def copyEdges (g : Permute.Csr) (p : Permute.NodePermutations) (nodes : Nat → Nat) (edges : Nat → Nat × Int)
    (u : Nat) : Nat → Nat × Int :=
  ((List.range' (g.nodes (p.newToOld u)) (g.nodes (p.newToOld u + 1) - g.nodes (p.newToOld u))).foldl
    (fun (s : Nat × (Nat → Nat × Int)) e => (s.1 + 1, upd s.2 s.1 (p.oldToNew (g.edges e).1, (g.edges e).2)))
    (nodes u, edges)).2

/-- `csr_read_deg_buckets`, PP 277-347, for the permutation `p` (`Permute.byBuckets`), on the contents `g` of the file:
the lambdas of PP 230-275 read the file with the same conversions as `csr_read`.  The iterations of the two loops
over the nodes are executed in the orders `order1`, `order2`; `garbage`, `garbageE`, `garbageW` are the contents of
the new arrays before. -/
def degBuckets (g : Permute.Csr) (p : Permute.NodePermutations) (order1 order2 : List Nat) (garbage : Nat → Nat)
    (garbageE : Nat → Nat × Int) (garbageW : Nat → Int) : Permute.Csr :=
  let new := order1.foldl (fun (s : (Nat → Nat) × (Nat → Int)) u =>
    (upd s.1 (u + 1) (g.nodes (p.newToOld u + 1) - g.nodes (p.newToOld u)), upd s.2 u (g.w (p.newToOld u))))
    (garbage, garbageW)
  let nodes := Permute.prefixSum (g.n + 1) (upd new.1 0 0)
  let edges := order2.foldl (copyEdges g p nodes) garbageE
  ⟨g.n, nodes, edges, new.2⟩

/-! ### The format for compressed graphs -/

/-- The build options that determine the encoding, `compressed_neighborhoods.h:78-117`. -/
structure Options where
  build : Build
  highDegree : Bool
  interval : Bool
  streamVByte : Bool
  highDegreeThreshold : Nat
  highDegreePartLength : Nat
  intervalLength : Nat
deriving DecidableEq, Repr

/-- A `CompressedGraph`: the array of offsets (its width and its memory), the compressed edges, the node weights
(empty if there are none) and the numbers that are stored besides. -/
structure Compressed where
  nodeWidth : Nat
  nodes : List Nat
  edges : List Nat
  nw : List Int
  edgeWeighted : Bool
  sorted : Bool
  m : Nat
  totalEw : Int
  maxDegree : Nat
  highDegreeNodes : Nat
  highDegreeParts : Nat
  intervalNodes : Nat
  intervals : Nat
deriving DecidableEq, Repr

/-- CB 87-93: the ten flags as a 16-bit integer. -/
def flags (o : Options) (hasNw hasEw sorted : Bool) : Nat :=
  o.streamVByte.toNat <<< 9 ||| o.interval.toNat <<< 8 ||| o.highDegree.toNat <<< 7 ||| sorted.toNat <<< 6 |||
    o.build.ew64.toNat <<< 5 ||| o.build.nw64.toNat <<< 4 ||| o.build.e64.toNat <<< 3 ||| o.build.n64.toNat <<< 2 |||
    hasEw.toNat <<< 1 ||| hasNw.toNat

/-- `kMagicNumber`, `shm_compressed_graph_binary.h:17`. -/
def magic : Nat := 0x434F4D5052455353

/-- `write`, CB 110-136, with `create_header`, CB 49-80, and `write_header`, CB 86-108; `n` and `hasNw` are the
answers of `n()` and `is_node_weighted()`. -/
def writeCompressed (o : Options) (n : Nat) (hasNw : Bool) (g : Compressed) : List Nat :=
  le 8 magic ++ le 2 (flags o hasNw g.edgeWeighted g.sorted) ++
    le 8 o.highDegreeThreshold ++ le 8 o.highDegreePartLength ++ le 8 o.intervalLength ++
    le 8 n ++ le 8 g.m ++ le 8 (bits 8 g.totalEw) ++ le 8 g.maxDegree ++
    le 8 g.highDegreeNodes ++ le 8 g.highDegreeParts ++ le 8 g.intervalNodes ++ le 8 g.intervals ++
    le 1 g.nodeWidth ++ le 8 g.nodes.length ++ g.nodes ++
    le 8 g.edges.length ++ g.edges ++
    (if hasNw then le 8 g.nw.length ++ g.nw.flatMap fun x => le (sz o.build.nw64) (bits (sz o.build.nw64) x) else [])

/-- `in.read` of `k` bytes; the values of bytes that are not there are undefined. -/
def take? (k : Nat) (s : List Nat) : Res (List Nat × List Nat) :=
  if k ≤ s.length then .ok (s.take k, s.drop k) else .error .undefined

/-- `read_int`, CB 138-142. -/
def readInt? (k : Nat) (s : List Nat) : Res (Nat × List Nat) := do
  let (l, s) ← take? k s
  return (ofLe l, s)

/-- `len` integers of `k` bytes. -/
def readInts? (k : Nat) : Nat → List Nat → Res (List Nat × List Nat)
  | 0, s => .ok ([], s)
  | len + 1, s => do
    let (x, s) ← readInt? k s
    let (l, s) ← readInts? k len s
    return (x :: l, s)

/-- `verify_header`, CB 157-262: the flags and the three lengths must be those of this build. -/
def verify (o : Options) (f t1 t2 t3 : Nat) : Bool :=
  let bit (i : Nat) : Bool := f &&& 2 ^ i ≠ 0
  bit 2 == o.build.n64 && bit 3 == o.build.e64 && bit 4 == o.build.nw64 && bit 5 == o.build.ew64 &&
    bit 7 == o.highDegree && bit 8 == o.interval && bit 9 == o.streamVByte &&
    t1 == o.highDegreeThreshold && t2 == o.highDegreePartLength && t3 == o.intervalLength

/-- `read`, CB 280-314, with `read_header`, CB 144-155, and the readers of arrays, CB 264-278.  The number of nodes in the header is not used. -/
def readCompressed (o : Options) (file : List Nat) : Res Compressed := do
  let (x, s) ← readInt? 8 file
  if x ≠ magic then .error .exit
  else
    let (f, s) ← readInt? 2 s
    let (t1, s) ← readInt? 8 s
    let (t2, s) ← readInt? 8 s
    let (t3, s) ← readInt? 8 s
    let (_, s) ← readInt? 8 s
    let (m, s) ← readInt? 8 s
    let (tew, s) ← readInt? 8 s
    let (maxDegree, s) ← readInt? 8 s
    let (h1, s) ← readInt? 8 s
    let (h2, s) ← readInt? 8 s
    let (i1, s) ← readInt? 8 s
    let (i2, s) ← readInt? 8 s
    if !verify o f t1 t2 t3 then .error .exit
    else
      let (width, s) ← readInt? 1 s
      let (size, s) ← readInt? 8 s
      let (nodes, s) ← take? size s
      let (size, s) ← readInt? 8 s
      let (edges, s) ← take? size s
      let nw ← (if f &&& 1 ≠ 0 then do
          let (size, s) ← readInt? 8 s
          let (l, _) ← readInts? (sz o.build.nw64) size s
          return l.map (signed (sz o.build.nw64))
        else .ok [])
      return { nodeWidth := width, nodes := nodes, edges := edges, nw := nw, edgeWeighted := f &&& 2 ≠ 0
               sorted := f &&& 64 ≠ 0, m := m % 2 ^ (8 * sz o.build.e64), totalEw := signed (sz o.build.ew64) (tew % 2 ^ (8 * sz o.build.ew64))
               maxDegree := maxDegree % 2 ^ (8 * sz o.build.n64), highDegreeNodes := h1, highDegreeParts := h2
               intervalNodes := i1, intervals := i2 }

/-- `is_compressed`, CB 316-324. -/
def isCompressed (file : List Nat) : Bool :=
  8 ≤ file.length && (match readInt? 8 file with
    | .ok (x, _) => x = magic
    | .error _ => false)

end Verif.Binary
