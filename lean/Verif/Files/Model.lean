import Verif.CsrGraph.Model

/-!
# Model of the text files: METIS graphs and partitions

Sources: `apps/io/file_toker.h` (FT), `apps/io/shm_metis_parser.cc` (MP) and `apps/io/shm_io.cc` (SI).

A file is the list of its characters.  Opening a file that exists and memory allocations do not fail.
Assertions (`KASSERT`) are off at the default level "light" (`CMakeLists.txt:88`); the flag `dbg` says whether
they are compiled in.  Warnings and statistics are left out.
-/

namespace Verif.Files
open Verif.CsrGraph (Arr)
open Verif.Math (subW)

/-- How a call can fail: an exception is thrown, an assertion fails, or memory is accessed that does not
belong to the object. -/
inductive Fault
  | thrown
  | assertion
  | undefined
deriving DecidableEq, Repr

/-- The result of a call. -/
abbrev Res (α : Type) := Except Fault α

/-- `KASSERT(b)`. -/
def kassert (dbg b : Bool) : Res Unit := if dbg && !b then .error .assertion else .ok ()

/-- The number of bits of the types `NodeID`, `EdgeID`, `NodeWeight`, `EdgeWeight` and `BlockID`,
`kaminpar-shm/kaminpar.h:40-64`; the weight types are signed. -/
structure Widths where
  node : Nat
  edge : Nat
  nw : Nat
  ew : Nat
  block : Nat

/-- `static_cast` to an unsigned type of `b` bits. -/
def toUnsigned (b x : Nat) : Nat := x % 2 ^ b

/-- `static_cast` to a signed type of `b` bits. -/
def toSigned (b x : Nat) : Int := if x % 2 ^ b < 2 ^ (b - 1) then (x % 2 ^ b : Nat) else (x % 2 ^ b : Nat) - 2 ^ b

/-! ### The tokenizer -/

/-- `MappedFileToker`, FT 172-176: the characters from `_position` on; if `_position` is behind the end, by how
much; and the number of bytes between the end of the file and the end of its last page, which are zero
(`mmap(2)`). -/
structure Toker where
  rest : List Char
  over : Nat
  slack : Nat
deriving DecidableEq, Repr

/-- The constructor, FT 37-57, for the page size `page`: `mmap` fails for empty files. -/
def Toker.open? (page : Nat) (file : List Char) : Res Toker :=
  if file = [] then .error .thrown
  else .ok { rest := file, over := 0, slack := (page - file.length % page) % page }

/-- `valid_position`, FT 152-154. -/
def Toker.valid (t : Toker) : Bool := !t.rest.isEmpty

/-- `current`, FT 156-158: it does not check the position. -/
def Toker.cur (t : Toker) : Res Char :=
  match t.rest with
  | c :: _ => .ok c
  | [] => if t.over < t.slack then .ok '\x00' else .error .undefined

/-- `advance`, FT 160-162. -/
def Toker.advance (t : Toker) : Toker :=
  match t.rest with
  | _ :: r => { t with rest := r }
  | [] => { t with over := t.over + 1 }

/-- The loop of FT 73-75 on the remaining characters. -/
def dropSpaces : List Char → List Char
  | [] => []
  | c :: r => if c = ' ' then dropSpaces r else c :: r

/-- `skip_spaces`, FT 72-76. -/
def Toker.skipSpaces (t : Toker) : Toker := { t with rest := dropSpaces t.rest }

/-- The loop of FT 79-85 on the remaining characters. -/
def dropLine : List Char → List Char
  | [] => []
  | c :: r => if c = '\n' then r else dropLine r

/-- `skip_line`, FT 78-86. -/
def Toker.skipLine (t : Toker) : Toker := { t with rest := dropLine t.rest }

/-- `std::isdigit` in the C locale. -/
def isDigit (c : Char) : Bool := '0'.toNat ≤ c.toNat && c.toNat ≤ '9'.toNat

/-- The loop of FT 92-96; the number has 64 bits. -/
def scanDigits : Nat → List Char → Nat × List Char
  | number, [] => (number, [])
  | number, c :: r =>
    if isDigit c then scanDigits ((number * 10 + (c.toNat - '0'.toNat)) % 2 ^ 64) r else (number, c :: r)

/-- `scan_uint`, FT 88-100. -/
def Toker.scanUint (dbg : Bool) (t : Toker) : Res (Nat × Toker) := do
  kassert dbg (match t.rest with | c :: _ => isDigit c | [] => false)
  let (number, r) := scanDigits 0 t.rest
  return (number, { t with rest := r }.skipSpaces)

/-- `consume_char`, FT 125-132. -/
def Toker.consumeChar (dbg : Bool) (ch : Char) (t : Toker) : Res Toker := do
  kassert dbg (match t.rest with | c :: _ => c = ch | [] => false)
  return t.advance

/-! ### Reading METIS files -/

/-- `MetisHeader`, MP 25-30. -/
structure Header where
  n : Nat
  m : Nat
  hasNw : Bool
  hasEw : Bool
deriving DecidableEq, Repr

/-- The loops of MP 34-37 and 92-95: `while (current() == '%') { skip_line(); skip_spaces(); }`.  Every
iteration consumes a character: as many iterations as there are characters are enough. -/
def skipComments : Nat → Toker → Res Toker
  | 0, t => do
    let c ← t.cur
    if c = '%' then .error .undefined else .ok t
  | fuel + 1, t => do
    let c ← t.cur
    if c = '%' then skipComments fuel t.skipLine.skipSpaces else .ok t

/-- MP 33-37 and 91-95. -/
def skipToLine (t : Toker) : Res Toker := skipComments t.rest.length t.skipSpaces

/-- MP 142-144: the loop at the end of the file, without skipping spaces. -/
def skipLastComments : Nat → Toker → Res Toker
  | 0, t => do
    let c ← t.cur
    if c = '%' then .error .undefined else .ok t
  | fuel + 1, t => do
    let c ← t.cur
    if c = '%' then skipLastComments fuel t.skipLine else .ok t

/-- `parse_header`, MP 32-76. -/
def parseHeader (w : Widths) (dbg : Bool) (t : Toker) : Res (Header × Toker) := do
  let t ← skipToLine t
  let (n, t) ← t.scanUint dbg
  let (m, t) ← t.scanUint dbg
  let c ← t.cur
  let (format, t) ← (if c ≠ '\n' then t.scanUint dbg else .ok (0, t))
  let t ← t.consumeChar dbg '\n'
  let hasNw : Bool := format % 100 / 10 ≠ 0
  let hasEw : Bool := format % 10 ≠ 0
  kassert dbg (n ≤ 2 ^ w.node - 1)
  kassert dbg (m ≤ 2 ^ w.edge - 1)
  kassert dbg (m ≤ n * (subW 64 n 1) % 2 ^ 64 / 2)
  return ({ n := n, m := m, hasNw := hasNw, hasEw := hasEw }, t)

/-- A weight of the file, MP 97-106 and 119-128; `b` is the width of the weight type. -/
def parseWeight (dbg has : Bool) (b : Nat) (t : Toker) : Res (Nat × Toker) :=
  if has then do
    let (x, t) ← t.scanUint dbg
    kassert dbg (x ≤ 2 ^ (b - 1) - 1)
    kassert dbg (x > 0)
    return (x, t)
  else .ok (1, t)

/-- The loop over the neighbours of node `u`, MP 116-134.  Every iteration consumes a digit: as many
iterations as there are characters are enough. -/
def parseEdges {σ : Type} (w : Widths) (dbg : Bool) (h : Header) (edgeCb : σ → Nat → Nat → Res σ) (u : Nat) :
    Nat → Toker → σ → Res (Toker × σ)
  | 0, t, s => do
    let c ← t.cur
    if isDigit c then .error .undefined else .ok (t, s)
  | fuel + 1, t, s => do
    let c ← t.cur
    if isDigit c then
      let (x, t) ← t.scanUint dbg
      let v := subW 64 x 1
      let (ew, t) ← parseWeight dbg h.hasEw w.ew t
      kassert dbg (v < h.n)
      kassert dbg (u ≠ v)
      let s ← edgeCb s ew v
      parseEdges w dbg h edgeCb u fuel t s
    else .ok (t, s)

/-- The loop over the nodes, MP 90-139, from node `u` on; the callbacks of both callers never stop it. -/
def parseNodes {σ : Type} (w : Widths) (dbg : Bool) (h : Header) (nodeCb : σ → Nat → Res σ)
    (edgeCb : σ → Nat → Nat → Res σ) : Nat → Nat → Toker → σ → Res (Toker × σ)
  | 0, _, t, s => .ok (t, s)
  | left + 1, u, t, s => do
    let t ← skipToLine t
    let (nw, t) ← parseWeight dbg h.hasNw w.nw t
    let s ← nodeCb s nw
    let (t, s) ← parseEdges w dbg h edgeCb u t.rest.length t s
    let t ← (if t.valid then t.consumeChar dbg '\n' else .ok t)
    parseNodes w dbg h nodeCb edgeCb left (u + 1) t s

/-- `parse_graph`, MP 78-150. -/
def parseGraph {σ : Type} (w : Widths) (dbg : Bool) (h : Header) (nodeCb : σ → Nat → Res σ)
    (edgeCb : σ → Nat → Nat → Res σ) (t : Toker) (s : σ) : Res σ := do
  let (t, s) ← parseNodes w dbg h nodeCb edgeCb h.n 0 t s
  let _ ← skipLastComments t.rest.length t
  return s

/-- `a[i] = x` for a `StaticArray`. -/
def store {α : Type} (a : Arr α) (i : Nat) (x : α) : Res (Arr α) :=
  if i < a.size then .ok { a with data := upd a.data i x } else .error .undefined

/-- The variables captured by the callbacks of `csr_read`, MP 158-175. -/
structure Csr where
  nodes : Arr Nat
  edges : Arr Nat
  nw : Arr Int
  ew : Arr Int
  u : Nat
  e : Nat
  totalNw : Nat
  totalEw : Nat

/-- MP 180-189. -/
def Csr.node (w : Widths) (h : Header) (s : Csr) (weight : Nat) : Res Csr := do
  let nodes ← store s.nodes s.u s.e
  let s := { s with nodes := nodes }
  let s ← (if h.hasNw then do
      let nw ← store s.nw s.u (toSigned w.nw weight)
      return { s with nw := nw, totalNw := (s.totalNw + weight) % 2 ^ 64 }
    else .ok s)
  return { s with u := toUnsigned w.node (s.u + 1) }

/-- MP 190-199. -/
def Csr.edge (w : Widths) (h : Header) (s : Csr) (weight v : Nat) : Res Csr := do
  let edges ← store s.edges s.e (toUnsigned w.node v)
  let s := { s with edges := edges }
  let s ← (if h.hasEw then do
      let ew ← store s.ew s.e (toSigned w.ew weight)
      return { s with ew := ew, totalEw := (s.totalEw + weight) % 2 ^ 64 }
    else .ok s)
  return { s with e := toUnsigned w.edge (s.e + 1) }

/-- The contents of the arrays before they are written (`noinit`). -/
structure Junk where
  nodes : Nat → Nat
  edges : Nat → Nat
  nw : Nat → Int
  ew : Nat → Int

/-- The arrays handed to the constructor of the graph, MP 228-230; `build` of the area `CsrGraph` is that
constructor. -/
structure Input where
  nodes : Arr Nat
  edges : Arr Nat
  nw : Arr Int
  ew : Arr Int

/-- `StaticArray::free` and the default constructor: no elements. -/
def Arr.empty (data : Nat → Int) : Arr Int := .owned data 0

/-- MP 171-230: what follows the parsing. -/
def Csr.finish (w : Widths) (dbg : Bool) (h : Header) (s : Csr) : Res Input := do
  kassert dbg (s.u + 1 = s.nodes.size)
  kassert dbg (s.e = 2 * h.m)
  let nodes ← store s.nodes s.u s.e
  let unitNw : Bool := h.hasNw && toUnsigned w.node (s.totalNw + 1) = nodes.size
  let unitEw : Bool := h.hasEw && toUnsigned w.edge s.totalEw = s.edges.size
  kassert dbg (toSigned 64 s.totalNw ≤ 2 ^ (w.nw - 1) - 1)
  kassert dbg (toSigned 64 s.totalEw ≤ 2 ^ (w.ew - 1) - 1)
  return { nodes := nodes, edges := s.edges
           nw := if unitNw then Arr.empty s.nw.data else s.nw
           ew := if unitEw then Arr.empty s.ew.data else s.ew }

/-- The variables before parsing, MP 158-175. -/
def Csr.init (h : Header) (junk : Junk) : Csr :=
  { nodes := .owned junk.nodes (h.n + 1), edges := .owned junk.edges (2 * h.m)
    nw := .owned junk.nw (if h.hasNw then h.n else 0), ew := .owned junk.ew (if h.hasEw then 2 * h.m else 0)
    u := 0, e := 0, totalNw := 0, totalEw := 0 }

/-- `metis::csr_read`, MP 154-231. -/
def csrRead (w : Widths) (dbg : Bool) (page : Nat) (junk : Junk) (file : List Char) : Res Input := do
  let t ← Toker.open? page file
  let (h, t) ← parseHeader w dbg t
  let s ← parseGraph w dbg h (Csr.node w h) (Csr.edge w h) t (Csr.init h junk)
  s.finish w dbg h

/-- What `compress_read` tells the `CompressedGraphBuilder`: the size, the calls of `add_node` and of
`add_node_weight`. -/
structure Builder where
  n : Nat
  m : Nat
  nodes : List (Nat × List (Nat × Int))
  weights : List (Nat × Int)
deriving DecidableEq, Repr

/-- The variables captured by the callbacks of `compress_read`, MP 245-256. -/
structure Comp where
  builder : Builder
  nbh : List (Nat × Int)
  node : Nat
  edge : Nat

/-- `builder.add_node(node, neighbourhood)`, MP 262 and 278: the offset of the node is stored in an array of
`n + 1` entries (`compressed_neighborhoods_builder.h:55-60`). -/
def Builder.addNode (b : Builder) (node : Nat) (nbh : List (Nat × Int)) : Res Builder :=
  if node ≤ b.n then .ok { b with nodes := b.nodes ++ [(node, nbh)] } else .error .undefined

/-- `builder.add_node_weight(node, weight)`, `compressed_graph_builder.cc:63-68`. -/
def Builder.addWeight (b : Builder) (node : Nat) (weight : Int) : Res Builder :=
  if node < b.n then .ok { b with weights := b.weights ++ [(node, weight)] } else .error .undefined

/-- MP 260-272. -/
def Comp.nodeCb (w : Widths) (h : Header) (s : Comp) (weight : Nat) : Res Comp := do
  let s ← (if s.node > 0 then do
      let b ← s.builder.addNode (s.node - 1) s.nbh
      return { s with builder := b, nbh := [] }
    else .ok s)
  let s ← (if h.hasNw then do
      let b ← s.builder.addWeight s.node (toSigned w.nw weight)
      return { s with builder := b }
    else .ok s)
  return { s with node := toUnsigned w.node (s.node + 1) }

/-- MP 273-276. -/
def Comp.edgeCb (w : Widths) (s : Comp) (weight v : Nat) : Res Comp :=
  .ok { s with nbh := s.nbh ++ [(toUnsigned w.node v, toSigned w.ew weight)]
               edge := toUnsigned w.edge (s.edge + 1) }

/-- `metis::compress_read`, MP 233-293, up to the call of `builder.build()`; the assertions on the total
weights are left out. -/
def compressRead (w : Widths) (dbg : Bool) (page : Nat) (file : List Char) : Res Builder := do
  let t ← Toker.open? page file
  let (h, t) ← parseHeader w dbg t
  let b : Builder := { n := toUnsigned w.node h.n, m := toUnsigned w.edge (2 * h.m), nodes := [], weights := [] }
  let s ← parseGraph w dbg h (Comp.nodeCb w h) (Comp.edgeCb w) t { builder := b, nbh := [], node := 0, edge := 0 }
  s.builder.addNode (subW w.node s.node 1) s.nbh

/-! ### Writing METIS files -/

/-- `out << x` for unsigned integers: decimal digits. -/
def digits (x : Nat) : List Char := Nat.toDigits 10 x

/-- `out << x` for signed integers. -/
def signedDigits : Int → List Char
  | .ofNat x => digits x
  | .negSucc x => '-' :: digits (x + 1)

/-- MP 315-321: the neighbours of a node; `adjacent_node + 1` has the type `NodeID`. -/
def writeEdges (w : Widths) (ewd : Bool) (nb : List (Nat × Int)) : List Char :=
  nb.flatMap fun x =>
    digits (toUnsigned w.node (x.1 + 1)) ++ [' '] ++ (if ewd then signedDigits x.2 ++ [' '] else [])

/-- MP 310-324: the line of a node. -/
def writeNode (w : Widths) (nwd ewd : Bool) (weight : Int) (nb : List (Nat × Int)) : List Char :=
  (if nwd then signedDigits weight ++ [' '] else []) ++ writeEdges w ewd nb ++ ['\n']

/-- MP 298-308: the header line. -/
def writeHeader (n m : Nat) (nwd ewd : Bool) : List Char :=
  digits n ++ [' '] ++ digits (m / 2) ++
    (if nwd || ewd then [' '] ++ (if nwd then ['1'] else []) ++ [if ewd then '1' else '0'] else []) ++ ['\n']

/-- `metis::write`, MP 295-325, for a graph that answers the calls as given. -/
def writeMetis (w : Widths) (g : Graph) (m : Nat) (nwd ewd : Bool) : List Char :=
  writeHeader g.n m nwd ewd ++ (List.range g.n).flatMap fun u => writeNode w nwd ewd (g.w u) (g.adj u)

/-! ### Partition files -/

/-- `partition::write`, SI 97-102, and `remapping::write`, SI 159-164. -/
def writePartition (part : List Nat) : List Char := part.flatMap fun b => digits b ++ ['\n']

/-- The loops of SI 109-112 and 136-139; `b` is the width of the elements.  Every iteration consumes a
character. -/
def readNumbers (dbg : Bool) (b : Nat) : Nat → Toker → Res (List Nat)
  | 0, t => if t.valid then .error .undefined else .ok []
  | fuel + 1, t =>
    if t.valid then do
      let (x, t) ← t.scanUint dbg
      let t ← t.consumeChar dbg '\n'
      let l ← readNumbers dbg b fuel t
      return toUnsigned b x :: l
    else .ok []

/-- `partition::read`, SI 104-115. -/
def readPartition (w : Widths) (dbg : Bool) (page : Nat) (file : List Char) : Res (List Nat) := do
  let t ← Toker.open? page file
  readNumbers dbg w.block file.length t

/-- SI 120-123: the sizes of the blocks, for block IDs below `k`. -/
def countBlocks (w : Widths) : List Nat → List Nat → Res (List Nat)
  | sizes, [] => .ok sizes
  | sizes, b :: part =>
    match sizes[b]? with
    | some s => countBlocks w (sizes.set b (toUnsigned w.node (s + 1))) part
    | none => .error .undefined

/-- `partition::write_block_sizes`, SI 117-129; the sizes are written as `BlockID`. -/
def writeBlockSizes (w : Widths) (k : Nat) (part : List Nat) : Res (List Char) := do
  let sizes ← countBlocks w (List.replicate k 0) part
  return writePartition (sizes.map (toUnsigned w.block))

/-- `std::accumulate` with the initial value `0`, an `int`, SI 141: the sum is truncated to 32 bits in every
step. -/
def sumInt (w : Widths) (sizes : List Nat) : Nat :=
  toUnsigned w.node (if sizes.foldl (fun s x => (s + x) % 2 ^ 32) 0 < 2 ^ 31 then
    sizes.foldl (fun s x => (s + x) % 2 ^ 32) 0
  else sizes.foldl (fun s x => (s + x) % 2 ^ 32) 0 + (2 ^ 64 - 2 ^ 32))

/-- The loop of SI 147-151; `partition` has `n` elements, which are zero in the beginning. -/
def fillBlocks (w : Widths) (n : Nat) : Nat → Nat → (Nat → Nat) → List Nat → Res (Nat → Nat)
  | _, _, part, [] => .ok part
  | cur, block, part, size :: sizes =>
    if cur + size ≤ n then
      fillBlocks w n (toUnsigned w.node (cur + size)) (toUnsigned w.block (block + 1))
        (fun i => if cur ≤ i ∧ i < cur + size then block else part i) sizes
    else .error .undefined

/-- `partition::read_block_sizes`, SI 131-154. -/
def readBlockSizes (w : Widths) (dbg : Bool) (page : Nat) (file : List Char) : Res (List Nat) := do
  let t ← Toker.open? page file
  let sizes ← readNumbers dbg w.node file.length t
  let n := sumInt w sizes
  let part ← fillBlocks w n 0 0 (fun _ => 0) sizes
  return (List.range n).map part

end Verif.Files
