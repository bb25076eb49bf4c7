import Verif.Blocks.Model
import Verif.Contraction.Preprocess

/-!
# Model of the extraction of block-induced subgraphs and of recursive bipartitioning

Sources: `kaminpar-shm/graphutils/subgraph_extractor.cc` (SE) and `.h` (SH),
`kaminpar-shm/partitioning/helper.cc` (HC).

A graph that is only read is a list: entry `u` holds the weight of node `u` and the pairs (neighbour, edge
weight) in the order of `adjacent_nodes(u)`.  Memory that is written is a function from cells to integers,
together with the sizes of its arrays and a flag that is cleared by a store outside an array.
Sums of weights do not overflow in the model; node and edge IDs fit their types.
-/

namespace Verif.Subgraph
open Verif.Math Verif.Blocks

/-! ## Graphs and memory -/

abbrev LGraph := List (Int × List (Nat × Int))

/-- `graph.node_weight(u)`. -/
def LGraph.w (g : LGraph) (u : Nat) : Int := (g.getD u (0, [])).1
/-- `graph.adjacent_nodes(u, ...)`. -/
def LGraph.adj (g : LGraph) (u : Nat) : List (Nat × Int) := (g.getD u (0, [])).2
/-- `graph.m()`. -/
def LGraph.m (g : LGraph) : Nat := (g.map fun r => r.2.length).sum
/-- `is_node_weighted()`, `csr_graph.h:89-91`: compares `n` to the total node weight. -/
def LGraph.nodeWeighted (g : LGraph) : Bool := (g.map Prod.fst).sum ≠ (g.length : Int)
/-- `is_edge_weighted()`, `csr_graph.h:108-110`: compares `m` to the total edge weight. -/
def LGraph.edgeWeighted (g : LGraph) : Bool :=
  ((g.flatMap Prod.snd).map Prod.snd).sum ≠ ((g.flatMap Prod.snd).length : Int)

/-- The arrays of `SubgraphMemory` (SH 94-97) and `TemporarySubgraphMemory` (SH 136-139). -/
inductive Cell
  | node (i : Nat)
  | edge (i : Nat)
  | nw (i : Nat)
  | ew (i : Nat)
  deriving DecidableEq, Repr

/-- Sizes of the four arrays. -/
structure Sizes where
  nodes : Nat
  edges : Nat
  nw : Nat
  ew : Nat
  deriving DecidableEq, Repr

def Cell.valid (s : Sizes) : Cell → Bool
  | .node i => i < s.nodes
  | .edge i => i < s.edges
  | .nw i => i < s.nw
  | .ew i => i < s.ew

structure Mem where
  cell : Cell → Int
  size : Sizes
  /-- no store so far was outside an array -/
  ok : Bool

def Mem.store (m : Mem) (c : Cell) (x : Int) : Mem :=
  { m with cell := upd m.cell c x, ok := m.ok && c.valid m.size }

/-- A `CSRGraph` built over a part of the memory: SE 133-157, 300-308 and 439-459.  `nw` and `ew` tell whether
the weight arrays were passed (otherwise they are empty). -/
structure View where
  npos : Nat
  n : Nat
  epos : Nat
  m : Nat
  nw : Bool
  ew : Bool
  deriving DecidableEq, Repr

/-- The total node weight differs from `n` (`csr_graph.cc:84-109` computes the total; without weights it is
`n`), so the weights are used (`csr_graph.h:89-96`). -/
def View.nodeWeighted (v : View) (mem : Cell → Int) : Bool :=
  v.nw && ((List.range v.n).map fun i => mem (.nw (v.npos + i))).sum ≠ (v.n : Int)

/-- As `View.nodeWeighted`, for the edges, `csr_graph.h:108-115`. -/
def View.edgeWeighted (v : View) (mem : Cell → Int) : Bool :=
  v.ew && ((List.range v.m).map fun i => mem (.ew (v.epos + i))).sum ≠ (v.m : Int)

/-- What the graph object shows, `csr_graph.h:93-115, 170-211`. -/
def View.graph (v : View) (mem : Cell → Int) : LGraph :=
  (List.range v.n).map fun u =>
    (if v.nodeWeighted mem then mem (.nw (v.npos + u)) else 1,
     (List.range' (mem (.node (v.npos + u))).toNat
        ((mem (.node (v.npos + u + 1))).toNat - (mem (.node (v.npos + u))).toNat)).map fun e =>
       ((mem (.edge (v.epos + e))).toNat, if v.edgeWeighted mem then mem (.ew (v.epos + e)) else 1))

/-! ## Writing one neighbourhood -/

/-- The inner loops SE 84-92, 286-296 and 421-432: the neighbours in the same block are appended at
`base + e`. -/
def putEdges (weighted : Bool) (base : Nat) (mapping : Nat → Nat) (keep : Nat → Bool) :
    List (Nat × Int) → Mem → Nat → Mem × Nat
  | [], m, e => (m, e)
  | (v, w) :: adj, m, e =>
    if keep v then
      let m := m.store (.edge (base + e)) (mapping v)
      let m := if weighted then m.store (.ew (base + e)) w else m
      putEdges weighted base mapping keep adj m (e + 1)
    else putEdges weighted base mapping keep adj m e

/-! ## Parallel extraction of all blocks -/

/-- The number of edges inside block `b` that start at one of the nodes `us`: SE 210-214, 365-369. -/
def countEdges (g : LGraph) (part : Nat → Nat) (us : List Nat) (b : Nat) : Nat :=
  us.foldl (fun s u => if part u = b then s + (g.adj u).countP (fun e => part e.1 = b) else s) 0

/-- The number of nodes in block `b` among `us`: SE 208, 364. -/
def countNodes (part : Nat → Nat) (us : List Nat) (b : Nat) : Nat :=
  us.foldl (fun s u => if part u = b then s + 1 else s) 0

/-- SE 219-231, 375-388: the counters of all threads are added up; thread `t` has processed the nodes
`threads[t]`. -/
def mergeCounts (cnt : List Nat → Nat → Nat) (threads : List (List Nat)) (b : Nat) : Nat :=
  threads.foldl (fun s us => s + cnt us b) 0

/-- The prefix sums of SE 232-234 and 389 over an array of `k + 1` entries whose first entry is 0. -/
def offsets (k : Nat) (a : Nat → Nat) : Nat → Nat :=
  Contraction.prefixSum (k + 1) fun i => if i = 0 then 0 else a (i - 1)

/-- The steps of the loops SE 237-248 and 394-400: node `u` takes a position in its block (the atomic
`fetch_add`) and later stores itself and its position (two stores to places of its own). -/
inductive Step
  | take (u : Nat)
  | store (u : Nat)
  deriving DecidableEq, Repr

structure BState where
  /-- `block_node_index`, `bucket_index` -/
  index : Nat → Nat
  /-- the array that receives the nodes: `block_nodes` or `subgraph_memory.nodes` -/
  nodes : Nat → Nat
  mapping : Nat → Nat
  /-- the position a node has taken, a local variable of its iteration -/
  slot : Nat → Nat

/-- One step of SE 242-246 or 395-399; `start` are the offsets of the blocks. -/
def bucketStep (part start : Nat → Nat) (s : BState) : Step → BState
  | .take u => { s with
      index := upd s.index (part u) (s.index (part u) + 1)
      slot := upd s.slot u (s.index (part u)) }
  | .store u => { s with
      nodes := upd s.nodes (start (part u) + s.slot u) u
      mapping := upd s.mapping u (s.slot u) }

/-- The loop `Construct subgraphs`: the local variables `u` and `e` of every block. -/
structure CState where
  mem : Mem
  u : Nat → Nat
  e : Nat → Nat

/-- One iteration of the loop over the nodes of block `b`, SE 411-433; when all nodes are processed, the final
store SE 435. -/
def constructStep (g : LGraph) (part mapping nstart estart index : Nat → Nat) (nwf ewf : Bool) (s : CState)
    (b : Nat) : CState :=
  let pos := nstart b + s.u b
  if s.u b < index b then
    let u' := (s.mem.cell (.node pos)).toNat
    let m := s.mem.store (.node pos) (s.e b)
    let m := if nwf then m.store (.nw pos) (g.w u') else m
    let r := putEdges ewf (estart b) mapping (fun v => part v = b) (g.adj u') m (s.e b)
    { mem := r.1, u := upd s.u b (s.u b + 1), e := upd s.e b r.2 }
  else { s with mem := s.mem.store (.node (nstart b + index b)) (s.e b) }

/-- How the parallel loops were executed. -/
structure Sched where
  /-- which nodes each thread counted -/
  threads : List (List Nat)
  /-- interleaving of the steps of the bucket loop -/
  steps : List Step
  /-- interleaving of the iterations of `Construct subgraphs`: the block whose iteration is next -/
  construct : List Nat

/-- Result of `extract_subgraphs`. -/
structure Extracted where
  mem : Mem
  mapping : Nat → Nat
  nstart : Nat → Nat
  estart : Nat → Nat
  views : Nat → View

/-- `extract_subgraphs_generic_graph`, SE 333-479.  `pad b` is the value of `compute_final_k(b, k, input_k)`;
`slot0` is an arbitrary initial value of the local variables.  The node IDs are first kept in the array `nodes`
of the memory; the stores of the bucket loop are collected in `bs.nodes` and all lie at indices checked here. -/
def extractAll (g : LGraph) (part pad : Nat → Nat) (k : Nat) (s : Sched) (mem : Mem) (slot0 : Nat → Nat) :
    Extracted :=
  let nstart := offsets k fun b => pad b + mergeCounts (countNodes part) s.threads b
  let estart := offsets k fun b => mergeCounts (countEdges g part) s.threads b
  let bs := s.steps.foldl (bucketStep part nstart)
    ⟨fun _ => 0, fun i => (mem.cell (.node i)).toNat, fun _ => 0, slot0⟩
  let nwf := g.nodeWeighted
  let ewf := g.edgeWeighted
  let mem1 : Mem :=
    { cell := fun | .node i => (bs.nodes i : Int) | c => mem.cell c
      size := mem.size
      ok := mem.ok && (List.range g.length).all fun u => (Cell.node (nstart (part u) + bs.mapping u)).valid mem.size }
  let cs := s.construct.foldl (constructStep g part bs.mapping nstart estart bs.index nwf ewf)
    ⟨mem1, fun _ => 0, fun _ => 0⟩
  { mem := cs.mem, mapping := bs.mapping, nstart := nstart, estart := estart
    views := fun b =>
      ⟨nstart b, nstart (b + 1) - nstart b - pad b, estart b, estart (b + 1) - estart b, nwf, ewf⟩ }

/-! ## Lazy extraction -/

/-- `lazy_extract_subgraphs_preprocessing`, SE 182-256: offsets, number of edges per block, and the state of the
bucket loop. -/
def lazyPreprocessing (g : LGraph) (part : Nat → Nat) (k : Nat) (s : Sched) (nodes0 mapping0 slot0 : Nat → Nat) :
    (Nat → Nat) × (Nat → Nat) × BState :=
  let off := offsets k fun b => mergeCounts (countNodes part) s.threads b
  let ne := fun b => mergeCounts (countEdges g part) s.threads b
  (off, ne, s.steps.foldl (bucketStep part off) ⟨fun _ => 0, nodes0, mapping0, slot0⟩)

/-- The loop of `extract_subgraph_generic_graph`, SE 277-297. -/
def extractLoop (g : LGraph) (part mapping : Nat → Nat) (b : Nat) (nwf ewf : Bool) :
    List Nat → Mem → Nat → Nat → Mem × Nat × Nat
  | [], m, cn, ce => (m, cn, ce)
  | u :: us, m, cn, ce =>
    let m := m.store (.node cn) ce
    let m := if nwf then m.store (.nw cn) (g.w u) else m
    let r := putEdges ewf 0 mapping (fun v => part v = b) (g.adj u) m ce
    extractLoop g part mapping b nwf ewf us r.1 (cn + 1) r.2

/-- `extract_subgraph_generic_graph`, SE 260-309. -/
def extractOne (g : LGraph) (part mapping : Nat → Nat) (b : Nat) (blockNodes : List Nat) (mem : Mem) :
    Mem × View :=
  let r := extractLoop g part mapping b g.nodeWeighted g.edgeWeighted blockNodes mem 0 0
  (r.1.store (.node blockNodes.length) r.2.2, ⟨0, r.2.1, 0, r.2.2, g.nodeWeighted, g.edgeWeighted⟩)

/-- Growing the thread's memory before the extraction, HC 281-302 (and 528-549); `resize` without
initialisation leaves arbitrary values, the model keeps the old ones. -/
def ensureMem (g : LGraph) (numNodes finalK numEdges : Nat) (s : Sizes) : Sizes :=
  let s := if s.nodes < numNodes + finalK then
      { s with nodes := numNodes + finalK, nw := if g.nodeWeighted then numNodes + finalK else s.nw }
    else s
  if s.edges < numEdges then
    { s with edges := numEdges, ew := if g.edgeWeighted then numEdges else s.ew }
  else s

/-! ## Sequential extraction of the two sides of a bipartition -/

structure Pass1 where
  mapping : Nat → Nat
  sn : Nat → Nat
  sm : Nat → Nat

/-- SE 56-65. -/
def pass1 (g : LGraph) (part : Nat → Nat) (mapping0 : Nat → Nat) : Pass1 :=
  (List.range g.length).foldl (fun s u =>
    { mapping := upd s.mapping u (s.sn (part u))
      sn := upd s.sn (part u) (s.sn (part u) + 1)
      sm := upd s.sm (part u) (s.sm (part u) + (g.adj u).countP (fun e => part e.1 = part u)) })
    ⟨mapping0, fun _ => 0, fun _ => 0⟩

/-- `ensure_size_nodes`, SH 114-125.  `n * 1.05` is computed in floating point; the model uses `n + n / 20`. -/
def ensureNodes (n : Nat) (weighted : Bool) (s : Sizes) : Sizes :=
  let s := if s.nodes < n + 1 then { s with nodes := n + n / 20 + 1 } else s
  if weighted && s.nw < n then { s with nw := n + n / 20 } else s

/-- `ensure_size_edges`, SH 127-135. -/
def ensureEdges (m : Nat) (weighted : Bool) (s : Sizes) : Sizes :=
  let s := if s.edges < m then { s with edges := m + m / 20 } else s
  if weighted && s.ew < m then { s with ew := m + m / 20 } else s

/-- One iteration of SE 78-98; the state is the temporary memory and `next_edge_id`. -/
def pass2Step (g : LGraph) (part mapping : Nat → Nat) (n1 m1 : Nat) (nwf ewf : Bool) (s : Mem × (Nat → Nat))
    (u : Nat) : Mem × (Nat → Nat) :=
  let b := part u
  let n0 := b * n1
  let m0 := b * m1
  let r := putEdges ewf m0 mapping (fun v => part v = b) (g.adj u) s.1 (s.2 b)
  let m := r.1.store (.node (n0 + mapping u + 1)) r.2
  let m := if nwf then m.store (.nw (n0 + mapping u)) (g.w u) else m
  (m, upd s.2 b r.2)

/-- `std::copy` of `len` entries of one array to position `pos` of the target array, SE 102-125. -/
def copyArr (kind : Nat → Cell) (len pos : Nat) (src : Cell → Int) (dst : Mem) : Mem :=
  (List.range len).foldl (fun m i => m.store (kind (pos + i)) (src (kind i))) dst

/-- `extract_subgraphs_sequential_generic_graph`, SE 28-164: the two memories and the two graphs.  `map0` is the
previous content of the array `mapping` of the temporary memory (its size is not modelled: it is at least
`n + final_k`).  The graph `g` may lie in the target memory; it is not read after the copying has begun. -/
def extractSeq (g : LGraph) (part : Nat → Nat) (k0 k1 npos epos : Nat) (mem tmp : Mem) (map0 : Nat → Nat) :
    Mem × Mem × View × View :=
  let nwf := g.nodeWeighted
  let ewf := g.edgeWeighted
  let finalK := k0 + k1
  let p := pass1 g part map0
  let n1 := p.sn 0 + k0
  let m1 := p.sm 0
  let tmp := { tmp with size := ensureNodes (g.length + finalK) nwf tmp.size }
  let tmp := (tmp.store (.node 0) 0).store (.node n1) 0
  let tmp := { tmp with size := ensureEdges (p.sm 0 + p.sm 1) ewf tmp.size }
  let tmp := ((List.range g.length).foldl (pass2Step g part p.mapping n1 m1 nwf ewf) (tmp, fun _ => 0)).1
  let mem := copyArr .node (g.length + finalK) npos tmp.cell mem
  let mem := copyArr .edge (p.sm 0 + p.sm 1) epos tmp.cell mem
  let mem := if nwf then copyArr .nw (g.length + finalK) npos tmp.cell mem else mem
  let mem := if ewf then copyArr .ew (p.sm 0 + p.sm 1) epos tmp.cell mem else mem
  (mem, tmp, ⟨npos, p.sn 0, epos, p.sm 0, nwf, ewf⟩, ⟨npos + n1, p.sn 1, epos + m1, p.sm 1, nwf, ewf⟩)

/-! ## Copying the partitions back -/

/-- The offsets `k0` of `copy_subgraph_partitions`, SE 505-513; `pad b` is `compute_final_k(b, k, input_k)`. -/
def blockOffsets (k kPrime inputK : Nat) (pad : Nat → Nat) : Nat → Nat :=
  offsets k fun b => if kPrime = inputK then pad b else kPrime / k

/-- `copy_subgraph_partitions`, SE 518-524: every node replaces its own entry; `order` is the order of the
parallel loop. -/
def copyPartitions (k0 : Nat → Nat) (sub : Nat → List Nat) (mapping : Nat → Nat) (order : List Nat)
    (part : Nat → Nat) : Nat → Nat :=
  order.foldl (fun p u => upd p u (k0 (p u) + (sub (p u)).getD (mapping u) 0)) part

/-! ## Recursive bipartitioning -/

/-- `compute_final_k`.  For `current_k = 1` the code shifts 0 by 32 bits; whatever that yields, the result is
`input_k` (`C04_root_value_shift_independent`). -/
def finalKRoot? (block currentK inputK : Nat) : Option Nat :=
  if currentK = 1 then some inputK else finalK? block currentK inputK

/-- HC 173-178: the nodes with label `rel` get the new label of their side; `node` counts them. -/
def relabel (rel : Nat) (new : Nat → Nat) : List Nat → Nat → List Nat
  | [], _ => []
  | b :: p, node => if b = rel then new node :: relabel rel new p (node + 1) else b :: relabel rel new p node

/-- The memories passed through the recursion. -/
structure Mems where
  mem : Mem
  tmp : Mem

/-- `extend_partition_recursive`, HC 135-210.  `bip g b k u` is the side of node `u` in the bipartition that
the worker pool computes for graph `g`, block `b` of `k` (arbitrary).  `none`: undefined behaviour in the block
arithmetic.  The depth is bounded by `fuel`. -/
def extendRec (inputK : Nat) (bip : LGraph → Nat → Nat → Nat → Nat) (map0 : Nat → Nat) :
    (fuel : Nat) → View → (rel abs numSub currentK : Nat) → List Nat → Mems → Option (List Nat × Mems)
  | 0, _, _, _, _, _, _, _ => none
  | fuel + 1, v, rel, abs, numSub, currentK, partition, ms => do
    let g := v.graph ms.mem.cell
    let side := bip g abs currentK
    let ks := splitIntegral numSub
    let rel1 := rel + ks.1
    let abs0 ← if 2 * currentK ≥ inputK then firstSubBlock? abs currentK inputK else some (2 * abs)
    let partition := relabel rel (fun u => if side u = 0 then rel else rel1) partition 0
    let finalK ← finalKRoot? abs currentK inputK
    let fks := splitIntegral finalK
    if numSub > 2 then
      let r := extractSeq g side fks.1 fks.2 v.npos v.epos ms.mem ms.tmp map0
      let ms : Mems := ⟨r.1, r.2.1⟩
      let next := nextK currentK inputK
      let (partition, ms) ← if ks.1 ≤ 1 then some (partition, ms)
        else extendRec inputK bip map0 fuel r.2.2.1 rel abs0 ks.1 next partition ms
      if ks.2 ≤ 1 then some (partition, ms)
      else extendRec inputK bip map0 fuel r.2.2.2 rel1 (abs0 + 1) ks.2 next partition ms
    else some (partition, ms)

/-! ## Extending a partition -/

/-- `subgraph_k`, HC 272 and 403-404; `pad b` is `compute_final_k(b, k, input_k)`. -/
def subK (k inputK desiredK : Nat) (pad : Nat → Nat) (b : Nat) : Nat :=
  if desiredK = inputK then pad b else desiredK / k

/-- The body of the parallel loop HC 397-424 for one block; the state is the shared memory and
`subgraph_partitions`.  `tmp b` is the thread-local memory that block `b` meets; its flag is added to the flag of
the shared memory. -/
def extendBlock (inputK desiredK k : Nat) (bip : LGraph → Nat → Nat → Nat → Nat) (map0 : Nat → Nat) (pad : Nat → Nat)
    (views : Nat → View) (tmp : Nat → Mem) (st : Mem × (Nat → List Nat)) (b : Nat) : Option (Mem × (Nat → List Nat)) :=
  if subK k inputK desiredK pad b > 1 then do
    let r ← extendRec inputK bip map0 (subK k inputK desiredK pad b) (views b) 0 b (subK k inputK desiredK pad b) k
      (st.2 b) ⟨st.1, tmp b⟩
    some ({ r.2.mem with ok := r.2.mem.ok && r.2.tmp.ok }, upd st.2 b r.1)
  else some st

/-- `extend_partition`, HC 374-434 (without the preceding loop of smaller extensions).  The parallel loop over
the blocks is modelled as a sequential one in an arbitrary `order`: the blocks use disjoint memory.  New label
arrays are zero-initialised (HC 387). -/
def extendPartition (g : LGraph) (part : Nat → Nat) (k inputK desiredK : Nat)
    (bip : LGraph → Nat → Nat → Nat → Nat) (map0 : Nat → Nat) (s : Sched) (mem : Mem) (slot0 : Nat → Nat)
    (tmp : Nat → Mem) (order nodeOrder : List Nat) : Option ((Nat → Nat) × Extracted × Mem) := do
  let pads ← (List.range k).mapM fun b => finalKRoot? b k inputK
  let pad := fun b => pads.getD b 0
  let r := extractAll g part pad k s mem slot0
  let st ← order.foldlM (extendBlock inputK desiredK k bip map0 pad r.views tmp)
    (r.mem, fun b => List.replicate (r.views b).n 0)
  some (copyPartitions (blockOffsets k desiredK inputK pad) st.2 r.mapping nodeOrder part, r, st.1)

/-- The body of the parallel loop HC 270-326 for one block: the labels and the flags of the memories.  `mem` is the
thread's memory before the block (any content). -/
def lazyBlock (g : LGraph) (part : Nat → Nat) (k inputK desiredK : Nat) (bip : LGraph → Nat → Nat → Nat → Nat)
    (map0 pad off ne : Nat → Nat) (bs : BState) (mem tmp : Mem) (b : Nat) : Option (List Nat × Bool) :=
  let n := off (b + 1) - off b
  if subK k inputK desiredK pad b ≤ 1 then some (List.replicate n 0, true)
  else
    let m : Mem := { mem with size := ensureMem g n (pad b) (ne b) mem.size }
    let r := extractOne g part bs.mapping b ((List.range' (off b) n).map bs.nodes) m
    (extendRec inputK bip map0 (subK k inputK desiredK pad b) r.2 0 b (subK k inputK desiredK pad b) k
      (List.replicate n 0) ⟨r.1, tmp⟩).map fun q => (q.1, q.2.mem.ok && q.2.tmp.ok)

/-- `extend_partition_lazy_extraction`, HC 247-336 (without the preceding loop of smaller extensions).  `mem b`
and `tmp b` are the thread-local memories that block `b` meets. -/
def extendLazy (g : LGraph) (part : Nat → Nat) (k inputK desiredK : Nat) (bip : LGraph → Nat → Nat → Nat → Nat)
    (map0 : Nat → Nat) (s : Sched) (nodes0 mapping0 slot0 : Nat → Nat) (mem tmp : Nat → Mem) (nodeOrder : List Nat) :
    Option ((Nat → Nat) × BState × List (List Nat × Bool)) := do
  let pads ← (List.range k).mapM fun b => finalKRoot? b k inputK
  let pad := fun b => pads.getD b 0
  let pre := lazyPreprocessing g part k s nodes0 mapping0 slot0
  let rs ← (List.range k).mapM fun b =>
    lazyBlock g part k inputK desiredK bip map0 pad pre.1 pre.2.1 pre.2.2 (mem b) (tmp b) b
  some (copyPartitions (blockOffsets k desiredK inputK pad) (fun b => (rs.getD b ([], true)).1) pre.2.2.mapping
    nodeOrder part, pre.2.2, rs)

/-! ## Completing a partial level (v-cycles) -/

/-- The offsets `k0` of `complete_partial_extend_partition`, HC 579-595. -/
def partialOffsets (currentK inputK : Nat) : Nat → Nat :=
  let level := Nat.log2 currentK
  let expanded := currentK - 2 ^ level
  offsets currentK fun b =>
    if b < 2 * expanded then 1 else min 2 ((finalKRoot? (b - expanded) (2 ^ level) inputK).getD 0)

/-- `desired_k` of `complete_partial_extend_partition`, HC 503-506: the new number of blocks. -/
def partialDesired (currentK inputK : Nat) : Nat :=
  let level := Nat.log2 currentK
  min (if currentK = 2 ^ level then currentK else 2 ^ (level + 1)) inputK

end Verif.Subgraph
