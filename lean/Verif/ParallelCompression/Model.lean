import Verif.Util
import Verif.Compression.Model

/-!
# Model of the parallel graph compression

Sources: `kaminpar-common/datastructures/concurrent_circular_vector.h` (CCV),
`kaminpar-shm/graphutils/parallel_compressed_graph_builder.h` (PCGB),
`kaminpar-common/graph_compression/compressed_neighborhoods_builder.h` (CNB).

The vectors are transition systems whose steps are the atomic operations; sequential consistency is
assumed.  `T` is the number of threads, the buffer has `T + 1` slots, `N` is the number of chunks
(each iteration of the parallel loop calls `next` and `fetch_and_update` once), `delta e` is the
size of the compressed chunk `e`.
-/

namespace Verif.ParallelCompression

/-! ### `ConcurrentCircularVectorSpinlock` -/

/-- Where a thread is in one loop iteration: not in an iteration; after `next` (CCV 38-40);
after the loop CCV 55-57 has seen the value `v`; after the store CCV 60. -/
inductive Pc
  | idle
  | has (entry : Nat)
  | loaded (entry v : Nat)
  | cleared (entry v : Nat)
  deriving DecidableEq, Repr

/-- State of the spin lock variant: `buf` holds `none` for `kLock` (the code requires that a sum
never equals the largest value, CCV 59); `out` logs the pairs (entry, return value of
`fetch_and_update`) in the order of completion. -/
structure Spin where
  counter : Nat
  buf : Nat → Option Nat
  pc : Nat → Pc
  out : List (Nat × Nat)

/-- `entry % _buffer.size()`, CCV 51. -/
def pos (T entry : Nat) : Nat := entry % (T + 1)

/-- `prev_pos`, CCV 52. -/
def prevPos (T entry : Nat) : Nat :=
  if pos T entry = 0 then T + 1 - 1 else pos T entry - 1

/-- The constructor, CCV 29-31. -/
def Spin.init (T : Nat) : Spin :=
  { counter := 0, buf := fun i => if i = T then some 0 else none, pc := fun _ => .idle, out := [] }

/-- One atomic step of thread `t`; a step that is not possible, and an unsuccessful load of the spin
loop, leave the state unchanged. -/
def Spin.step (T N : Nat) (delta : Nat → Nat) (s : Spin) (t : Nat) : Spin :=
  if t < T then
    match s.pc t with
    | .idle =>
      if s.counter < N then
        { s with counter := s.counter + 1, pc := upd s.pc t (.has s.counter) }
      else s
    | .has e =>
      match s.buf (prevPos T e) with
      | none => s
      | some v => { s with pc := upd s.pc t (.loaded e v) }
    | .loaded e v =>
      { s with buf := upd s.buf (prevPos T e) none, pc := upd s.pc t (.cleared e v) }
    | .cleared e v =>
      { s with
        buf := upd s.buf (pos T e) (some (v + delta e))
        pc := upd s.pc t .idle
        out := s.out ++ [(e, v)] }
  else s

/-- A schedule is the list of threads that take the steps. -/
def Spin.run (T N : Nat) (delta : Nat → Nat) (sched : List Nat) : Spin :=
  sched.foldl (Spin.step T N delta) (Spin.init T)

/-! ### `ConcurrentCircularVectorMutex` -/

/-- Where a thread is: not in an iteration; after `next` (CCV 86-95; the `_next_mutex` makes it
atomic); holding the mutex of the previous slot (CCV 110); after reading the value and releasing
that mutex (CCV 111-112); after storing the sum (CCV 114). -/
inductive MPc
  | idle
  | has (entry : Nat)
  | holding (entry : Nat)
  | got (entry v : Nat)
  | stored (entry v : Nat)
  deriving DecidableEq, Repr

/-- `locked i` is the state of mutex `i`; `failed` records a failed `try_lock`, CCV 91-92 (the code
only asserts that it succeeds). -/
structure Mut where
  counter : Nat
  buf : Nat → Nat
  locked : Nat → Bool
  pc : Nat → MPc
  out : List (Nat × Nat)
  failed : Bool

/-- The constructor, CCV 76-79. -/
def Mut.init : Mut :=
  { counter := 0, buf := fun _ => 0, locked := fun _ => false, pc := fun _ => .idle, out := [],
    failed := false }

/-- One atomic step of thread `t`; a step that is not possible or blocks leaves the state
unchanged. -/
def Mut.step (T N : Nat) (delta : Nat → Nat) (s : Mut) (t : Nat) : Mut :=
  if t < T then
    match s.pc t with
    | .idle =>
      if s.counter < N then
        { s with
          counter := s.counter + 1
          pc := upd s.pc t (.has s.counter)
          failed := s.failed || s.locked (pos T s.counter)
          locked := upd s.locked (pos T s.counter) true }
      else s
    | .has e =>
      if s.locked (prevPos T e) then s
      else { s with pc := upd s.pc t (.holding e), locked := upd s.locked (prevPos T e) true }
    | .holding e =>
      { s with
        pc := upd s.pc t (.got e (s.buf (prevPos T e)))
        locked := upd s.locked (prevPos T e) false }
    | .got e v =>
      { s with pc := upd s.pc t (.stored e v), buf := upd s.buf (pos T e) (v + delta e) }
    | .stored e v =>
      { s with
        pc := upd s.pc t .idle
        locked := upd s.locked (pos T e) false
        out := s.out ++ [(e, v)] }
  else s

/-- A schedule is the list of threads that take the steps. -/
def Mut.run (T N : Nat) (delta : Nat → Nat) (sched : List Nat) : Mut :=
  sched.foldl (Mut.step T N delta) Mut.init

/-! ### Chunks -/

/-- State of the chunk loop PCGB 148-180: `start` = `cur_chunk_start`, `order` = `cur_chunk_order`,
`firstEdge` = `cur_first_edge`. -/
structure ChunkSt where
  i : Nat := 0
  start : Nat := 0
  order : Nat := 0
  firstEdge : Nat := 0
  chunks : List (Nat × Nat × Nat) := []

/-- The loop body, PCGB 151-179. -/
def chunkStep (maxOrder : Nat) (s : ChunkSt) (degree : Nat) : ChunkSt :=
  let order := s.order + degree
  if order ≥ maxOrder then
    if s.start = s.i then
      { i := s.i + 1, start := s.i + 1, order := 0, firstEdge := s.firstEdge + degree,
        chunks := s.chunks ++ [(s.start, s.i + 1, s.firstEdge)] }
    else
      { i := s.i + 1, start := s.i, order := degree, firstEdge := s.firstEdge + (order - degree),
        chunks := s.chunks ++ [(s.start, s.i, s.firstEdge)] }
  else { s with i := s.i + 1, order := order }

/-- "Compute chunks", PCGB 139-187: `(start, end, first_edge)` of each chunk. -/
def computeChunks (maxOrder : Nat) (degrees : List Nat) : List (Nat × Nat × Nat) :=
  let s := degrees.foldl (chunkStep maxOrder) {}
  if s.start ≠ degrees.length then s.chunks ++ [(s.start, degrees.length, s.firstEdge)]
  else s.chunks

/-! ### Compressing and copying the chunks -/

/-- Compressing one chunk into the thread's own buffer, PCGB 228-253: the offsets relative to the
buffer and the bytes of the nodes `start, …, end - 1` of the (already renumbered) graph. -/
def compressChunk? (c : Compression.Cfg) (hasW : Bool) (wE : Nat) (g : List (List Compression.Nbr))
    (chunk : Nat × Nat × Nat) : Option (List Nat × List Nat) :=
  Compression.addNodes? c hasW wE chunk.1 0 ((g.drop chunk.1).take (chunk.2.1 - chunk.1))

/-- The single-element writes of storing a list from an address on. -/
def writes (off : Nat) (xs : List Nat) : List (Nat × Nat) := xs.mapIdx fun i x => (off + i, x)

/-- `add_compressed_edges`, CNB 188-191: the bytes of a chunk are copied to `offset`. -/
def byteWrites (offset : Nat) (out : List Nat × List Nat) : List (Nat × Nat) :=
  writes offset out.2

/-- The loop PCGB 264-267 with `add_node`, CNB 175-177: node `i` gets `offset + local_offset`. -/
def nodeWrites (start offset : Nat) (out : List Nat × List Nat) : List (Nat × Nat) :=
  writes start (out.1.map (offset + ·))

/-- Single-element writes carried out one after the other; `none`: not written. -/
def writeAll (ws : List (Nat × Nat)) : Nat → Option Nat :=
  ws.foldl (fun m w => upd m w.1 (some w.2)) fun _ => none

/-- The first `n` elements of an array, if all have been written. -/
def readAll? (m : Nat → Option Nat) (n : Nat) : Option (List Nat) := (List.range n).mapM m

/-- `build`, CNB 227-255: the size is written behind the offsets; the padding of 15 bytes for
StreamVByte (whose contents the decoder ignores) is modelled as zeros. -/
def build? (c : Compression.Cfg) (n size : Nat) (nodes bytes : Nat → Option Nat) :
    Option Compression.Compressed := do
  let ns ← readAll? nodes n
  let bs ← readAll? bytes size
  return { nodes := ns ++ [size], bytes := bs ++ (if c.svb then List.replicate 15 0 else []) }

end Verif.ParallelCompression
