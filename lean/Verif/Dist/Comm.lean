import Verif.Dist.Model
import Verif.Net.Model

/-!
# Model of the messages along cut edges

Sources: `kaminpar-dist/graphutils/communication.h` (COM), `kaminpar-dist/graphutils/synchronization.h` (SYH),
`kaminpar-dist/graphutils/synchronization.cc` (SYC), `kaminpar-dist/dkaminpar.cc` (DK).

The messages are written into buffers that are not initialized (`NoinitVector`): a slot that was never written is `none`, and
reading it is undefined.
-/

namespace Verif.Dist
open Verif.Math

variable {μ ν : Type}

/-- The messages that `sparse_alltoall_interface_to_ghost_custom_range` creates for the node `u`, each with its destination, in the
order of their creation, COM 159-181 and 198-227.  A filter on nodes is a filter that ignores its other arguments. -/
def toGhostMessages? (g : DGraph) (filter : Nat → Nat → Int → Bool) (build : Nat → Nat → Int → Nat → μ) (u : Nat) :
    Option (List (Nat × μ)) := do
  let l ← g.adjacent? u
  (l.filter fun x => g.isGhost x.1 && filter u x.1 x.2).mapM fun x =>
    (g.owner? x.1).map fun pe => (pe, build u x.1 x.2 pe)

/-- The visit of one neighbour in `sparse_alltoall_interface_to_pe_custom_range`, COM 501-514 and 549-573.  The marker
`created_message_for_pe`, which is reset after each node, is replaced by the list of the marked processes (see C13). -/
def toPeStep? (g : DGraph) (build : Nat → μ) (s : List Nat × List (Nat × μ)) (x : Nat × Int) :
    Option (List Nat × List (Nat × μ)) :=
  if g.isGhost x.1 then
    (g.owner? x.1).map fun pe => if pe ∈ s.1 then s else (pe :: s.1, s.2 ++ [(pe, build pe)])
  else some s

/-- The messages that `sparse_alltoall_interface_to_pe_custom_range` creates for the node `u`, COM 487-517 and 535-576. -/
def toPeMessages? (g : DGraph) (filter : Nat → Bool) (build : Nat → Nat → μ) (u : Nat) : Option (List (Nat × μ)) :=
  if filter u then (g.adjacent? u).bind fun l => (l.foldlM (toPeStep? g (build u)) ([], [])).map (·.2) else some []

/-- `++num_messages[thread][pe]`, COM 176 and 512. -/
def countItem? (T N : Nat) (num : Nat × Nat → Nat) (x : Nat × Nat × μ) : Option (Nat × Nat → Nat) :=
  if x.1 < T ∧ x.2.1 < N then some (upd num (x.1, x.2.1) (num (x.1, x.2.1) + 1)) else none

/-- The counting loop runs one iteration on a thread, COM 159-181 and 482-517; `ev` is the thread and the iteration. -/
def countStep? (T N : Nat) (items? : Nat → Option (List (Nat × μ))) (num : Nat × Nat → Nat) (ev : Nat × Nat) :
    Option (Nat × Nat → Nat) :=
  (items? ev.2).bind fun its => (its.map fun it => (ev.1, it)).foldlM (countItem? T N) num

/-- One row of `inclusive_col_prefix_sum`, COM 46-48. -/
def prefixRow (N : Nat) (num : Nat × Nat → Nat) (i : Nat) : Nat × Nat → Nat :=
  (List.range N).foldl (fun num j => upd num (i, j) (num (i, j) + num (i - 1, j))) num

/-- `inclusive_col_prefix_sum`, COM 38-50. -/
def colPrefixSums (T N : Nat) (num : Nat × Nat → Nat) : Nat × Nat → Nat :=
  (List.range' 1 (T - 1)).foldl (prefixRow N) num

/-- The counters and the send buffers during the second loop; the keys of `buf` are process and slot. -/
structure Fill (μ : Type) where
  num : Nat × Nat → Nat
  buf : Nat × Nat → Option μ

/-- `slot = --num_messages[thread][pe]` and the write to the slot, COM 217-222 and 562-571.  If the counter is 0, the slot is
`2^64 - 1`, which is outside of the buffer. -/
def fillItem? (T N : Nat) (size : Nat → Nat) (s : Fill μ) (x : Nat × Nat × μ) : Option (Fill μ) :=
  if x.1 < T ∧ x.2.1 < N ∧ 0 < s.num (x.1, x.2.1) ∧ s.num (x.1, x.2.1) - 1 < size x.2.1 then
    some { num := upd s.num (x.1, x.2.1) (s.num (x.1, x.2.1) - 1)
           buf := upd s.buf (x.2.1, s.num (x.1, x.2.1) - 1) (some x.2.2) }
  else none

/-- The second loop runs one iteration on a thread, COM 198-227 and 530-576. -/
def fillStep? (T N : Nat) (size : Nat → Nat) (items? : Nat → Option (List (Nat × μ))) (s : Fill μ) (ev : Nat × Nat) :
    Option (Fill μ) :=
  (items? ev.2).bind fun its => (its.map fun it => (ev.1, it)).foldlM (fillItem? T N size) s

/-- The second loop with the results of the first one, and the send buffers as `sparse_alltoall` reads them. -/
def fillBuffers? (T N : Nat) (items? : Nat → Option (List (Nat × μ))) (num : Nat × Nat → Nat) (fill : List (Nat × Nat)) :
    Option (List (List μ)) := do
  let s ← fill.foldlM (fillStep? T N (fun pe => num (T - 1, pe)) items?) ⟨num, fun _ => none⟩
  (List.range N).mapM fun pe => (List.range' 0 (num (T - 1, pe))).mapM fun i => s.buf (pe, i)

/-- The construction of the messages for `N` processes by `T` threads, COM 150-229 and 473-578.  `count` and `fill` are the
executions of the two parallel loops. -/
def sendBuffers? (T N : Nat) (items? : Nat → Option (List (Nat × μ))) (count fill : List (Nat × Nat)) : Option (List (List μ)) :=
  if T = 0 then none
  else (count.foldlM (countStep? T N items?) fun _ => 0).bind fun num => fillBuffers? T N items? (colPrefixSums T N num) fill

/-- The iterations of `deterministic_for` that thread `t` executes, in their order, see `deterministicForCalls`. -/
def threadIterations (T fr ub t : Nat) : List Nat :=
  ((deterministicForCalls T fr ub).filter fun c => c.2.2 == t).flatMap fun c => List.range' c.1 (c.2.1 - c.1)

/-- `ev` is an execution of a `deterministic_for` loop over `fr, …, ub - 1` with `T` threads: each thread executes its iterations
in their order, and the threads interleave arbitrarily. -/
def Schedule (T fr ub : Nat) (ev : List (Nat × Nat)) : Prop :=
  ∀ t, (ev.filter fun e => e.1 == t).map (·.2) = threadIterations T fr ub t

/-- The threads of one process and its executions of the two loops. -/
structure Execution where
  threads : Nat
  count : List (Nat × Nat)
  fill : List (Nat × Nat)

/-- The calls of the receiver on process `me`, given the send buffers of all `N` processes, COM 229-231 and 578-580.  `z` is an
arbitrary message, the initial value of buffers in the exchange (see C51). -/
def exchange? (N : Nat) (z : μ) (bufs? : Nat → Option (List (List μ))) (me : Nat) : Option (List (Nat × List μ)) := do
  let send ← (List.range N).mapM bufs?
  Net.calls? N z (fun p => send.getD p []) me

/-- The receiver handles one message from process `pe`, SYH 35-38 and SYC 21-25; `cap` is the size of the array. -/
def applyMessage? (g : DGraph) (cap pe : Nat) (arr : Nat → ν) (msg : Nat × ν) : Option (Nat → ν) :=
  (g.mapRemote? msg.1 pe).bind fun l => if l < cap then some (upd arr l msg.2) else none

/-- All calls of the receiver, SYH 33-40 and SYC 19-27.  The messages of one call are handled by a parallel loop, in the order that
`shuffle` returns. -/
def receive? (g : DGraph) (cap : Nat) (shuffle : List (Nat × ν) → List (Nat × ν)) (calls : List (Nat × List (Nat × ν)))
    (arr : Nat → ν) : Option (Nat → ν) :=
  calls.foldlM (fun arr c => (shuffle c.2).foldlM (applyMessage? g cap c.1) arr) arr

/-- An exchange of values between the processes: `g p` is the graph of process `p`, `val p` its values of nodes.  Each node `u` of
`p` with `filter p u` and a ghost copy on process `me` sends its value, and `me` writes the received values to its array `arr`. -/
def syncFiltered? (N : Nat) (z : Nat × ν) (g : Nat → DGraph) (ex : Nat → Execution) (filter : Nat → Nat → Bool) (val : Nat → Nat → ν)
    (cap : Nat) (shuffle : List (Nat × ν) → List (Nat × ν)) (me : Nat) (arr : Nat → ν) : Option (Nat → ν) :=
  (exchange? N z (fun p => sendBuffers? (ex p).threads N (toPeMessages? (g p) (filter p) fun u _ => (u, val p u))
    (ex p).count (ex p).fill) me).bind fun calls => receive? (g me) cap shuffle calls arr

/-- `synchronize_ghost_node_weights`, SYH 24-42, and `synchronize_ghost_node_block_ids`, SYC 11-30, on process `me`: `val p` is the
array of process `p` with a value for each local node.  The result is the array of process `me` afterwards. -/
def syncGhosts? (N : Nat) (z : Nat × ν) (g : Nat → DGraph) (ex : Nat → Execution) (val : Nat → Nat → ν) (cap : Nat)
    (shuffle : List (Nat × ν) → List (Nat × ν)) (me : Nat) : Option (Nat → ν) :=
  syncFiltered? N z g ex (fun _ _ => true) val cap shuffle me (val me)

/-- The end of `import_graph`, DK 275-280, on process `me`: if some process has node weights, those of the ghost nodes are
exchanged. -/
def fillGhostWeights? (N : Nat) (z : Nat × Int) (g : Nat → DGraph) (ex : Nat → Execution)
    (shuffle : List (Nat × Int) → List (Nat × Int)) (me : Nat) : Option DGraph :=
  if (List.range N).any fun p => !(g p).nodeWeights.isEmpty then
    (syncGhosts? N z g ex (fun p u => ((g p).nodeWeight? u).getD 0) (g me).nodeWeights.length shuffle me).map fun arr =>
      { g me with nodeWeights := (List.range (g me).nodeWeights.length).map arr }
  else some (g me)

end Verif.Dist
