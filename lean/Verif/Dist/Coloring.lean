import Verif.Dist.Jet
import Verif.FlatBip.Model
import Verif.Math.Model

/-!
# Model of the distributed node colouring

Source: `kaminpar-dist/algorithms/greedy_node_coloring.h` (GC).

The marker of the colours of the neighbours, which is reset after each node, is the list of the marked colours (see C13, which also
says that a marker with 64 bit values is only reliable for less than `2^31` resets).  The exchange of colours is that of C65.
`none` is undefined behaviour: a colour beyond the size of the marker, or an access outside of an array.
-/

namespace Verif.Dist

namespace DGraph

/-- `degree`, `distributed_csr_graph.h:484-487`. -/
def degree? (g : DGraph) (u : Nat) : Option Nat := do
  let fr ← g.nodes[u]?
  let ub ← g.nodes[u + 1]?
  return ub - fr

end DGraph

/-- `coloring` and `active` of one process, GC 36-37 and 51-52. -/
structure Colors where
  color : Nat → Nat
  active : Nat → Bool

/-- `max_degree`, GC 41-44. -/
def maxDegree? (g : DGraph) : Option Nat := ((List.range g.n).mapM g.degree?).map fun l => l.foldl max 0

/-- `max_colors`, GC 45. -/
def maxColors? (N : Nat) (g : Nat → DGraph) : Option Nat := ((List.range N).mapM fun p => maxDegree? (g p)).map fun l => l.foldl max 0 + 1

/-- The visit of the neighbour `v` of `u`, GC 68-77: the colour of `v` may be marked. -/
def markColor? (g : DGraph) (size : Nat) (color : Nat → Nat) (u : Nat) (marked : List Nat) (v : Nat) : Option (List Nat) :=
  if color v ≠ 0 then
    if color u = 0 then (if color v - 1 < size then some ((color v - 1) :: marked) else none)
    else
      (g.localToGlobal? u).bind fun gu =>
      (g.localToGlobal? v).bind fun gv =>
        if ¬(color v = color u ∧ gu < gv) then (if color v - 1 < size then some ((color v - 1) :: marked) else none)
        else some marked
  else some marked

/-- The visit of the node `u`, GC 63-94. -/
def colorNode? (g : DGraph) (size : Nat) (s : Colors) (u : Nat) : Option Colors :=
  if s.active u then
    (g.adjacent? u).bind fun adj =>
    ((adj.map (·.1)).foldlM (markColor? g size s.color u) []).bind fun marked =>
      if s.color u = 0 then
        some { color := upd s.color u (FlatBip.firstUnmarked size (fun x => decide (x ∈ marked)) + 1)
               active := if (adj.map (·.1)).any g.isGhost then s.active else upd s.active u false }
      else if s.color u - 1 < size then
        if s.color u - 1 ∈ marked then
          some { s with color := upd s.color u (FlatBip.firstUnmarked size (fun x => decide (x ∈ marked)) + 1) }
        else some { s with active := upd s.active u false }
      else none
  else some s

/-- How the threads execute the exchange of one superstep, and the order in which the received messages are handled on each process. -/
structure ColorSchedule where
  exec : Nat → Execution
  shuffle : Nat → List (Nat × Nat) → List (Nat × Nat)

/-- The loop over the nodes of one superstep on one process, GC 59-95. -/
def colorRange? (g : DGraph) (S size i : Nat) (s : Colors) : Option Colors :=
  (Math.localRange? g.n S i).bind fun r => (List.range' r.1 (r.2 - r.1)).foldlM (colorNode? g size) s

/-- The exchange of one superstep on process `me`, GC 98-125; the result is also whether nothing was received. -/
def colorExchange? (N : Nat) (g : Nat → DGraph) (sch : ColorSchedule) (t : Nat → Colors) (me : Nat) : Option (Colors × Bool) :=
  (exchange? N (0, 0) (fun p => sendBuffers? (sch.exec p).threads N
    (toPeMessages? (g p) (t p).active fun u _ => (u, (t p).color u)) (sch.exec p).count (sch.exec p).fill) me).bind fun calls =>
  (receive? (g me) (g me).totalN (sch.shuffle me) calls (t me).color).map fun arr =>
    ({ t me with color := arr }, calls.all fun c => c.2.isEmpty)

/-- One superstep on all processes, GC 58-126; `ok p` is `converged` of process `p`. -/
def colorStep? (N : Nat) (g : Nat → DGraph) (S size : Nat) (sch : Nat → ColorSchedule) (x : (Nat → Colors) × (Nat → Bool)) (i : Nat) :
    Option ((Nat → Colors) × (Nat → Bool)) :=
  (forAll? N ⟨fun _ => 0, fun _ => false⟩ fun p => colorRange? (g p) S size i (x.1 p)).bind fun t =>
  (forAll? N (⟨fun _ => 0, fun _ => false⟩, false) fun p => colorExchange? N g (sch i) t p).map fun y =>
    (fun p => (y p).1, fun p => x.2 p && (y p).2)

/-- One iteration of the outer loop, GC 56-126. -/
def colorPass? (N : Nat) (g : Nat → DGraph) (S size : Nat) (sch : Nat → ColorSchedule) (s : Nat → Colors) :
    Option ((Nat → Colors) × (Nat → Bool)) :=
  (List.range S).foldlM (colorStep? N g S size sch) (s, fun _ => true)

/-- The outer loop, GC 54-127, stopped after `fuel` iterations; the result is also whether it has ended by then.  `sch t i` is the
schedule of superstep `i` of the iteration `t`. -/
def colorLoop? (N : Nat) (g : Nat → DGraph) (S size : Nat) (sch : Nat → Nat → ColorSchedule) :
    Nat → Nat → (Nat → Colors) → Option ((Nat → Colors) × Bool)
  | 0, _, s => some (s, false)
  | fuel + 1, t, s => (colorPass? N g S size (sch t) s).bind fun x =>
      if (List.range N).all x.2 then some (x.1, true) else colorLoop? N g S size sch fuel (t + 1) x.1

/-- `compute_node_coloring_sequentially`, GC 29-202, stopped after `fuel` iterations: the colours of all nodes of all processes and
whether the algorithm has ended.  A node without colour would get the colour `2^64 - 1`; here it counts as a failure. -/
def nodeColoring? (N : Nat) (g : Nat → DGraph) (S : Nat) (sch : Nat → Nat → ColorSchedule) (fuel : Nat) :
    Option ((Nat → Nat → Nat) × Bool) :=
  (maxColors? N g).bind fun size =>
  (colorLoop? N g S size sch fuel 0 fun _ => ⟨fun _ => 0, fun _ => true⟩).bind fun r =>
    if r.2 && !((List.range N).all fun p => (List.range (g p).totalN).all fun l => (r.1 p).color l != 0) then none
    else some (fun p l => (r.1 p).color l - 1, r.2)

end Verif.Dist
