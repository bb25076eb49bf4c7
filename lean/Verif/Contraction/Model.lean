import Verif.Contraction.Preprocess
import Verif.Graph.Basic
import Verif.DynMaps.Props

/-!
# Model of the cluster contraction algorithms

Sources, all below `kaminpar-shm/coarsening/contraction/`: `buffered_cluster_contraction.cc` (BCC),
`legacy_buffered_cluster_contraction.cc` (LBC), `naive_unbuffered_cluster_contraction.cc` (NUC),
`unbuffered_cluster_contraction.cc` (UCC), `cluster_contraction_preprocessing.h` (CCPH); and
`kaminpar-common/datastructures/ts_navigable_linked_list.h` (TNL), `rating_map.h` (RM),
`concurrent_fast_reset_array.h` (CFR).

Memory shared by the threads is a function from cells (`Target`) to integers.  The cells written by a parallel
loop are not read in the same loop except by the iteration that wrote them, so a parallel loop is its list of
writes, executed in an arbitrary order; what the threads do between writes is thread-local.
Integers do not overflow in the model (weights: assumption; IDs and offsets: at most `n` resp. `m`).
-/

namespace Verif.Contraction

open Verif.Maps

/-! ## Aggregating the neighbourhood of a coarse node -/

/-- The operations `map[c_v] += w` executed for coarse node `c` whose bucket holds the fine nodes `bucket`:
BCC 137-151, LBC 74-88, NUC 61-76 and 128-139, UCC 273-294. -/
def inputs (g : Graph) (mapping : Nat → Nat) (bucket : List Nat) (c : Nat) : List (Nat × Int) :=
  bucket.flatMap fun u => (g.adj u).filterMap fun e =>
    if c ≠ mapping e.1 then some (mapping e.1, e.2) else none

/-- `c_u_weight`: BCC 138-143, UCC 277-281. -/
def bucketWeight (g : Graph) (bucket : List Nat) : Int := bucket.foldl (fun s u => s + g.w u) 0

/-- The fine nodes of coarse node `c`: `buckets[buckets_index[c] .. buckets_index[c + 1])`. -/
def bucketOf (b : BucketState) (c : Nat) : List Nat :=
  (List.range' (b.index c) (b.index (c + 1) - b.index c)).map b.buckets

/-- The map operations for one coarse node. -/
def incs (ins : List (Nat × Int)) : List Op := ins.map fun e => .inc e.1 e.2

/-- A thread uses its map for one coarse node after the other and clears it in between: the operations of the
earlier uses followed by those of the current one. -/
def session (earlier : List (List (Nat × Int))) (ins : List (Nat × Int)) : List Op :=
  (earlier.flatMap fun l => incs l ++ [.clear]) ++ incs ins

/-- `RatingMap::MapType`, RM 98-102. -/
inductive Kind
  | superSmall
  | small
  | large
  deriving DecidableEq, Repr

/-- `RatingMap::select_map`, RM 154-168; `SmallMap::MAP_SIZE = 32768`. -/
def selectMap (maxSize upper : Nat) : Kind :=
  if upper < 128 / 3 then .superSmall
  else if maxSize < 32768 ∨ upper > 32768 / 3 then .large
  else .small

/-- `RatingMap::execute`, RM 116-131, with the aggregation as its argument: the entries the map lists
afterwards; `none` if the map runs into undefined behaviour. -/
def ratingMap (kind : Kind) (maxSize : Nat) (earlier : List (List (Nat × Int))) (ins : List (Nat × Int)) :
    Option (List (Nat × Int)) :=
  match kind with
  | .superSmall => (run (FixedMap.op 0) (FixedMap.new 128) (session earlier ins)).map FixedMap.entries
  | .small => (run (FixedMap.op 0) (FixedMap.new 32768) (session earlier ins)).map FixedMap.entries
  | .large => (run FastResetArray.op (FastResetArray.new maxSize) (session earlier ins)).map FastResetArray.entries

/-- The growing hash table of UCC 302-317: `DynamicRememberingFlatMap` with 32-bit timestamps. -/
def growingMap (earlier : List (List (Nat × Int))) (ins : List (Nat × Int)) : Option (List (Nat × Int)) :=
  (run (DynMaps.Rem.op 32) DynMaps.Rem.new (session earlier ins)).bind DynMaps.Rem.entries?

/-- The first phase of the two-phase implementation, UCC 366-397: the aggregation stops when the map has
`threshold` keys.  `some none`: the coarse node is postponed to the second phase. -/
def firstPhase (threshold : Nat) : FixedMap → List (Nat × Int) → Option (Option (List (Nat × Int)))
  | s, [] => some (some s.entries)
  | s, e :: ins => (s.op 0 (.inc e.1 e.2)).bind fun s' =>
      if threshold ≤ s'.size then some none else firstPhase threshold s' ins

/-- `edge_collector` of the second phase: `_data` and the per-thread `_used_entries_tls`, CFR 136-137. -/
structure Concurrent where
  data : Nat → Int
  used : Nat → List Nat

/-- One iteration of `flush_local_rating_map`, UCC 436-448, by thread `t`: the atomic addition and the
thread-local bookkeeping. -/
def Concurrent.add (s : Concurrent) (x : Nat × Nat × Int) : Concurrent :=
  { data := upd s.data x.2.1 (s.data x.2.1 + x.2.2)
    used := if s.data x.2.1 = 0 then upd s.used x.1 (s.used x.1 ++ [x.2.1]) else s.used }

/-- The entries `iterate_and_reset` (CFR 104-130, called in UCC 524-534) visits when it handles the threads'
lists in the order `threads`. -/
def Concurrent.entries (s : Concurrent) (threads : List Nat) : List (Nat × Int) :=
  threads.flatMap fun t => (s.used t).map fun k => (k, s.data k)

/-- The second phase for one coarse node, UCC 428-534: `adds` are the atomic additions `(thread, key, weight)` in
their order of execution. -/
def secondPhase (adds : List (Nat × Nat × Int)) (threads : List Nat) : List (Nat × Int) :=
  (adds.foldl Concurrent.add ⟨fun _ => 0, fun _ => []⟩).entries threads

/-! ## Shared memory -/

/-- Cells of the arrays `c_nodes`, `c_node_weights`, `c_edges`, `c_edge_weights` and `remapping`. -/
inductive Target
  | node (i : Nat)
  | nweight (i : Nat)
  | edge (i : Nat)
  | eweight (i : Nat)
  | remap (i : Nat)
  deriving DecidableEq, Repr

abbrev Mem := Target → Int
abbrev Write := Target × Int

/-- Executing writes one after the other. -/
def exec (m : Mem) (ws : List Write) : Mem := ws.foldl (fun m w => upd m w.1 w.2) m

/-- The coarse graph described by the arrays: the CSR representation handed to the `CSRGraph` constructor, BCC
260-267 (see C24 for the CSR graph itself). -/
def coarse (cn : Nat) (m : Mem) : Graph where
  n := cn
  w := fun c => m (.nweight c)
  adj := fun c => (List.range' (m (.node c)).toNat ((m (.node (c + 1))).toNat - (m (.node c)).toNat)).map
    fun e => ((m (.edge e)).toNat, m (.eweight e))

/-! ## The thread-local edge buffers of the buffered algorithm -/

/-- `LocalNavigableLinkedList`, TNL 81-83; a marker is a key and a position. -/
structure NavList where
  chunks : List (List (Nat × Int))
  current : List (Nat × Int)
  markers : List (Nat × Nat)

/-- A new list. -/
def NavList.empty : NavList := ⟨[], [], []⟩

/-- `position`, TNL 50-52, for chunk size `K`. -/
def NavList.position (K : Nat) (l : NavList) : Nat := l.chunks.length * K + l.current.length

/-- `mark`, TNL 31-33. -/
def NavList.mark (K : Nat) (l : NavList) (key : Nat) : NavList :=
  { l with markers := l.markers ++ [(key, l.position K)] }

/-- `flush`, TNL 62-68. -/
def NavList.flush (l : NavList) : NavList :=
  if l.current.isEmpty then l else { l with chunks := l.chunks ++ [l.current], current := [] }

/-- `push_back`, TNL 35-38, with `flush_if_full`, TNL 75-79. -/
def NavList.push (K : Nat) (l : NavList) (e : Nat × Int) : NavList :=
  let l := if l.current.length = K then l.flush else l
  { l with current := l.current ++ [e] }

/-- `get`, TNL 54-56; `none` if the position does not exist in the flushed chunks. -/
def NavList.get? (K : Nat) (l : NavList) (pos : Nat) : Option (Nat × Int) :=
  (l.chunks[pos / K]?).bind fun ch => ch[pos % K]?

/-! ## Buffered contraction -/

/-- The list of a thread that has processed the coarse nodes `nodes` in this order, BCC 131-185; `col c` are the
entries its rating map lists for `c`. -/
def fillList (K : Nat) (col : Nat → List (Nat × Int)) (nodes : List Nat) : NavList :=
  nodes.foldl (fun l c => (col c).foldl (NavList.push K) (l.mark K c)) .empty

/-- The schedule of one chunk. -/
structure ChunkSched where
  /-- the coarse nodes each thread processes, in its order -/
  threads : List (List Nat)
  /-- reorders the writes to `c_node_weights` and `c_nodes` -/
  order1 : List Write → List Write
  /-- the order in which the threads' markers are appended to `all_buffered_nodes` -/
  markers : List Nat
  /-- reorders the writes to `c_edges` and `c_edge_weights` -/
  order2 : List Write → List Write

/-- The writes of BCC 153-154. -/
def nodeWrites (col : Nat → List (Nat × Int)) (wgt : Nat → Int) (nodes : List Nat) : List Write :=
  nodes.flatMap fun c => [(.nweight c, wgt c), (.node (c + 1), ((col c).length : Int))]

/-- `parallel::prefix_sum(c_nodes + a, c_nodes + b + 1, c_nodes + a)`, BCC 187-191. -/
def prefixNodes (a b : Nat) (m : Mem) : Mem
  | .node i => if a ≤ i ∧ i ≤ b then ((List.range' a (i + 1 - a)).map fun j => m (.node j)).sum else m (.node i)
  | t => m t

/-- `all_buffered_nodes`, BCC 202-219: (thread, (key, position)). -/
def allMarkers (lists : List NavList) (order : List Nat) : List (Nat × (Nat × Nat)) :=
  order.flatMap fun t => ((lists[t]?.map NavList.markers).getD []).map fun mk => (t, mk)

/-- The copy loop of one iteration, BCC 221-236; `none`: a read outside of a buffer. -/
def copyWrites? (K : Nat) (lists : List NavList) (m : Mem) (mk : Nat × (Nat × Nat)) : Option (List Write) :=
  let c := mk.2.1
  let degree := (m (.node (c + 1))).toNat - (m (.node c)).toNat
  let first := (m (.node c)).toNat
  ((List.range degree).mapM fun j =>
    (lists[mk.1]?).bind fun l => (l.flush.get? K (mk.2.2 + j)).map fun e =>
      [(Target.edge (first + j), (e.1 : Int)), (Target.eweight (first + j), e.2)]).map List.flatten

/-- All copies of a chunk `[a, b)`: iteration `i` handles marker `i - a` (`none` if there is no such marker). -/
def copyAll? (K a b : Nat) (lists : List NavList) (all : List (Nat × (Nat × Nat))) (m : Mem) : Option (List Write) :=
  ((List.range (b - a)).mapM fun i => (all[i]?).bind (copyWrites? K lists m)).map List.flatten

/-- One iteration of the chunk loop, BCC 125-240. -/
def chunkStep? (K : Nat) (col : Nat → List (Nat × Int)) (wgt : Nat → Int) (a b : Nat) (s : ChunkSched) (m : Mem) :
    Option Mem :=
  let lists := s.threads.map (fillList K col)
  let m := prefixNodes a b (exec m (s.order1 (nodeWrites col wgt s.threads.flatten)))
  (copyAll? K a b lists (allMarkers lists s.markers) m).map fun ws => exec m (s.order2 ws)

/-- The loop over all chunks. -/
def bufferedLoop? (K : Nat) (col : Nat → List (Nat × Int)) (wgt : Nat → Int) :
    List ((Nat × Nat) × ChunkSched) → Mem → Option Mem
  | [], m => some m
  | (r, s) :: rest, m => (chunkStep? K col wgt r.1 r.2 s m).bind (bufferedLoop? K col wgt rest)

/-- The chunk computation, BCC 81-107: `deg c` is the fine degree stored in `c_nodes[c + 1]`; the counters are
32-bit (`NodeID`). -/
def chunksFrom (cn limit : Nat) (deg : Nat → Nat) : Nat → Nat → Nat → Nat → List (Nat × Nat)
  | 0, start, _, _ => if start ≠ cn then [(start, cn)] else []
  | todo + 1, start, count, c =>
    let count := (count + deg c) % 2 ^ 32
    if limit ≤ count then
      if start = c then (c, c + 1) :: chunksFrom cn limit deg todo (c + 1) 0 (c + 1)
      else (start, c) :: chunksFrom cn limit deg todo c 0 (c + 1)
    else chunksFrom cn limit deg todo start count (c + 1)

/-- `cluster_chunks`, BCC 55-108: `limit` is `max_chunk_edge_count` if the coarse nodes are split.  The legacy
algorithm (LBC) works like the buffered one with one chunk. -/
def chunks (cn : Nat) (limit : Option Nat) (deg : Nat → Nat) : List (Nat × Nat) :=
  match limit with
  | none => [(0, cn)]
  | some limit => chunksFrom cn limit deg cn 0 0 0

/-! ## Naive unbuffered contraction -/

/-- The writes of the second pass, NUC 141-147. -/
def edgeWrites (first : Nat) (entries : List (Nat × Int)) : List Write :=
  entries.zipIdx.flatMap fun x => [(Target.edge (first + x.2), (x.1.1 : Int)), (Target.eweight (first + x.2), x.1.2)]

/-- NUC 47-178: degrees from the first aggregation (`col1`), edges from the second (`col2`); `order1`, `order2`
reorder the writes of the two parallel loops. -/
def naive (cn : Nat) (col1 col2 : Nat → List (Nat × Int)) (wgt : Nat → Int) (order1 order2 : List Write → List Write)
    (m : Mem) : Mem :=
  let m := prefixNodes 0 cn (exec m (order1 (nodeWrites col1 wgt (List.range cn))))
  exec m (order2 ((List.range cn).flatMap fun c => edgeWrites (m (.node c)).toNat (col2 c)))

/-! ## Unbuffered contraction -/

/-- `NeighborhoodsBuffer`, UCC 110-124; `nodes` has one more entry than `remap`. -/
structure NBuf where
  remap : List Nat
  nodes : List Nat
  weights : List Int
  edges : List (Nat × Int)

/-- The constructor, UCC 42-57. -/
def NBuf.empty : NBuf := ⟨[], [0], [], []⟩

/-- `overfills`, UCC 67-69, for the capacities `maxN` (4096) and `maxE` (32768). -/
def NBuf.overfills (maxN maxE : Nat) (b : NBuf) (degree : Nat) : Bool :=
  decide (maxN ≤ b.remap.length + 1 ∨ maxE ≤ b.edges.length + degree)

/-- `add`, UCC 71-83; `none`: a write behind the end of a buffer. -/
def NBuf.add? (maxN maxE : Nat) (b : NBuf) (c : Nat) (weight : Int) (entries : List (Nat × Int)) : Option NBuf :=
  if b.remap.length + 1 < maxN ∧ b.edges.length + entries.length ≤ maxE then
    some { remap := b.remap ++ [c]
           nodes := b.nodes ++ [entries.length + b.nodes.getLastD 0]
           weights := b.weights ++ [weight]
           edges := b.edges ++ entries }
  else none

/-- The writes of `flush`, UCC 85-103. -/
def NBuf.flushWrites (b : NBuf) (c e : Nat) : List Write :=
  (b.edges.zipIdx.map fun x => (Target.eweight (e + x.2), x.1.2)) ++
  (b.edges.zipIdx.map fun x => (Target.edge (e + x.2), (x.1.1 : Int))) ++
  (b.weights.zipIdx.map fun x => (Target.nweight (c + x.2), x.1)) ++
  (b.remap.zipIdx.flatMap fun x => [(Target.remap x.1, ((c + x.2 : Nat) : Int)),
    (Target.node (c + x.2), ((b.nodes.getD x.2 0 + e : Nat) : Int))])

/-- The writes of `write_neighbourhood`, UCC 172-187. -/
def neighbourhoodWrites (c : Nat) (weight : Int) (new e : Nat) (entries : List (Nat × Int)) : List Write :=
  [(.remap c, (new : Int)), (.node new, (e : Int)), (.nweight new, weight)] ++ edgeWrites e entries

/-- What the threads do, in the order of their accesses to `next_coarse_node_info`. -/
inductive Ev
  /-- thread `t` transfers the aggregated edges of coarse node `c` -/
  | transfer (t c : Nat)
  /-- the buffer of thread `t` is flushed at the end -/
  | flush (t : Nat)
  /-- coarse node `c` is handled in the second phase -/
  | second (c : Nat)
  deriving DecidableEq, Repr

/-- `next_coarse_node_info`, the buffers, and the writes issued so far. -/
structure UState where
  nextC : Nat
  nextE : Nat
  buf : Nat → NBuf
  writes : List Write

/-- One event: `transfer_edges` (UCC 223-254), `flush_edges` (UCC 258-268) or the end of the second phase for one
node (UCC 512-534, where the entries are written directly). -/
def ustep? (maxN maxE : Nat) (col : Nat → List (Nat × Int)) (wgt : Nat → Int) (s : UState) : Ev → Option UState
  | .transfer t c =>
    let degree := (col c).length
    if maxE ≤ degree then
      some { s with
        nextC := s.nextC + 1
        nextE := s.nextE + degree
        writes := s.writes ++ neighbourhoodWrites c (wgt c) s.nextC s.nextE (col c) }
    else if (s.buf t).overfills maxN maxE degree then
      let nb := (s.buf t).remap.length
      let eb := (s.buf t).edges.length
      some { nextC := s.nextC + (nb + 1)
             nextE := s.nextE + (eb + degree)
             buf := upd s.buf t .empty
             writes := s.writes ++ ((s.buf t).flushWrites s.nextC s.nextE ++
               neighbourhoodWrites c (wgt c) (s.nextC + nb) (s.nextE + eb) (col c)) }
    else ((s.buf t).add? maxN maxE c (wgt c) (col c)).map fun b => { s with buf := upd s.buf t b }
  | .flush t =>
    let nb := (s.buf t).remap.length
    if nb = 0 then some s
    else some { nextC := s.nextC + nb
                nextE := s.nextE + (s.buf t).edges.length
                buf := upd s.buf t .empty
                writes := s.writes ++ (s.buf t).flushWrites s.nextC s.nextE }
  | .second c =>
    some { s with
      nextC := s.nextC + 1
      nextE := s.nextE + (col c).length
      writes := s.writes ++ neighbourhoodWrites c (wgt c) s.nextC s.nextE (col c) }

/-- All events. -/
def urun? (maxN maxE : Nat) (col : Nat → List (Nat × Int)) (wgt : Nat → Int) : UState → List Ev → Option UState
  | s, [] => some s
  | s, ev :: evs => (ustep? maxN maxE col wgt s ev).bind fun s' => urun? maxN maxE col wgt s' evs

/-- The remapping of the coarse edges, UCC 550-554, as writes. -/
def remapWrites (cm : Nat) (m : Mem) : List Write :=
  (List.range cm).map fun e => (Target.edge e, m (.remap (m (.edge e)).toNat))

/-- `contract_clustering_unbuffered`, UCC 127-583: memory and mapping at the end.  `order1`, `order2` reorder the
writes of the aggregation and of the remapping. -/
def unbuffered? (maxN maxE cn : Nat) (col : Nat → List (Nat × Int)) (wgt : Nat → Int) (mapping : Nat → Nat)
    (evs : List Ev) (order1 order2 : List Write → List Write) (m : Mem) : Option (Mem × (Nat → Nat)) :=
  (urun? maxN maxE col wgt ⟨0, 0, fun _ => .empty, []⟩ evs).map fun s =>
    let m := upd (exec m (order1 s.writes)) (.node cn) (s.nextE : Int)
    (exec m (order2 (remapWrites s.nextE m)), fun u => (m (.remap (mapping u))).toNat)

/-! ## Projection -/

/-- `CoarseGraphImpl::project_up`, CCPH 32-36. -/
def projectUp (mapping coarsePart : Nat → Nat) (order : List Nat) (fine : Nat → Nat) : Nat → Nat :=
  order.foldl (fun a i => upd a i (coarsePart (mapping i))) fine

/-- `CoarseGraphImpl::project_down`, CCPH 38-42. -/
def projectDown (mapping finePart : Nat → Nat) (order : List Nat) (coarsePart : Nat → Nat) : Nat → Nat :=
  order.foldl (fun a i => upd a (mapping i) (finePart i)) coarsePart

end Verif.Contraction
