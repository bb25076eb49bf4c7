import Verif.Grid.Model
import Verif.Util

/-!
# Model of point-to-point communication

Source: `kaminpar-mpi/alltoall.h` (AA), `kaminpar-mpi/sparse_alltoall.h` (SA), `kaminpar-mpi/sparse_allreduce.h` (SR),
`kaminpar-mpi/wrapper.h` (W).

The ranks of a communicator run programs that send messages without waiting (`MPI_Isend`), wait for the next message of a certain rank
(`MPI_Probe` and `MPI_Recv`), and wait until a message they sent may be forgotten (`MPI_Wait`).  The ranks are asynchronous, messages from
one rank to another arrive in order.  MPI decides for each message whether it copies the message (then `MPI_Wait` returns at once) or
hands it over (then `MPI_Wait` returns when it was received).  All tags are 0.
-/

namespace Verif.Net

/-- A program of a rank: the communication that is left.  `eager`: MPI copies the message.  `fail`: undefined behaviour. -/
inductive Prog (μ β : Type) where
  | ret (x : β)
  | fail
  | send (dst : Nat) (eager : Bool) (m : μ) (k : Prog μ β)
  | recv (src : Nat) (k : μ → Prog μ β)
  | wait (dst : Nat) (k : Prog μ β)

/-- The ranks and the messages on their way, with the decision of MPI: `net src dst` is the queue from `src` to `dst`. -/
structure St (μ β : Type) where
  procs : Nat → Prog μ β
  net : Nat → Nat → List (μ × Bool)

variable {μ β : Type}

/-- A queue of the network changes. -/
def setNet (net : Nat → Nat → List (μ × Bool)) (src dst : Nat) (q : List (μ × Bool)) : Nat → Nat → List (μ × Bool) :=
  fun x y => if x = src ∧ y = dst then q else net x y

/-- The next step of a rank, if it can make one.  A message to a rank that does not exist is an error. -/
def act (N : Nat) (rank : Nat) (s : St μ β) : Option (St μ β) :=
  match s.procs rank with
  | .ret _ => none
  | .fail => none
  | .send dst eager m k =>
    if dst < N then some ⟨upd s.procs rank k, setNet s.net rank dst (s.net rank dst ++ [(m, eager)])⟩ else none
  | .recv src k =>
    match s.net src rank with
    | [] => none
    | (m, _) :: rest => some ⟨upd s.procs rank (k m), setNet s.net src rank rest⟩
  | .wait dst k => if (s.net rank dst).all Prod.snd then some ⟨upd s.procs rank k, s.net⟩ else none

/-- A step of the system: some rank makes a step. -/
def Step (N : Nat) (s s' : St μ β) : Prop := ∃ rank, rank < N ∧ act N rank s = some s'

/-- The states that can be reached by a number of steps. -/
inductive Reach (N : Nat) (s0 : St μ β) : Nat → St μ β → Prop
  | refl : Reach N s0 0 s0
  | tail {n : Nat} {s s' : St μ β} (h : Reach N s0 n s) (hs : Step N s s') : Reach N s0 (n + 1) s'

/-! ## The direct all-to-all exchange -/

/-- AA 143-149: send a buffer to each other rank. -/
def sendLoop (rank : Nat) (eager : Nat → Bool) (bufs : Nat → μ) : List Nat → Prog μ β → Prog μ β
  | [], k => k
  | pe :: l, k =>
    if pe ≠ rank then .send pe (eager pe) (bufs pe) (sendLoop rank eager bufs l k) else sendLoop rank eager bufs l k

/-- AA 155-162, W 214-222: get the buffers of all ranks; the calls of the receiver. -/
def recvLoop (rank : Nat) (own : μ) : List Nat → List (Nat × μ) → (List (Nat × μ) → Prog μ β) → Prog μ β
  | [], calls, k => k calls
  | pe :: l, calls, k =>
    if pe = rank then recvLoop rank own l (calls ++ [(pe, own)]) k
    else .recv pe fun m => recvLoop rank own l (calls ++ [(pe, m)]) k

/-- AA 164-166: wait for all messages that were sent. -/
def waitLoop (rank : Nat) : List Nat → Prog μ β → Prog μ β
  | [], k => k
  | pe :: l, k => if pe ≠ rank then .wait pe (waitLoop rank l k) else waitLoop rank l k

/-- `sparse_alltoall_complete`, AA 135-169, followed by `k` with the calls of the receiver. -/
def alltoall (N rank : Nat) (eager : Nat → Bool) (bufs : Nat → μ) (k : List (Nat × μ) → Prog μ β) : Prog μ β :=
  sendLoop rank eager bufs (List.range N) (recvLoop rank (bufs rank) (List.range N) [] fun calls => waitLoop rank (List.range N) (k calls))

/-- Several exchanges, one after the other; the calls of the receivers. -/
def alltoalls (N rank : Nat) : List ((Nat → Bool) × (Nat → μ)) → List (List (Nat × μ)) → Prog μ (List (List (Nat × μ)))
  | [], out => .ret out
  | x :: l, out => alltoall N rank x.1 x.2 fun calls => alltoalls N rank l (out ++ [calls])

/-! ## The exchange with `MPI_Alltoallv` -/

/-- AA 69-110 up to the call of `mpi::alltoallv`, for the rank `me`; `mpi::alltoall` (AA 79) is modelled by its specification. -/
def vcall {α : Type} (N : Nat) (z : α) (send : Nat → List (List α)) (me : Nat) : Grid.Call α :=
  let scnt := (send me).map List.length
  let rcnt := (List.range N).map fun pe => ((send pe).getD me []).length
  ⟨(send me).flatten, scnt, Grid.displs scnt,
    List.replicate ((Grid.displs rcnt).getLastD 0 + rcnt.getLastD 0) z, rcnt, Grid.displs rcnt⟩

/-- `sparse_alltoall_alltoallv`, AA 61-132: the calls of the receiver on rank `me`; `none`: undefined behaviour. -/
def alltoallv? {α : Type} (N : Nat) (z : α) (send : Nat → List (List α)) (me : Nat) : Option (List (Nat × List α)) := do
  let buf ← Grid.alltoallv? (fun _ => List.range N) (fun pe => some (vcall N z send pe)) me
  let rcnt := (vcall N z send me).rcnt
  (List.range N).mapM fun pe => do
    let n ← rcnt[pe]?
    let d ← (Grid.displs rcnt)[pe]?
    let x ← Grid.slice? buf d n
    some (pe, x)

/-! ## Dispatch -/

/-- An `int` with the value of a number modulo `2^32`, converted to `size_t`. -/
def wrap (x : Nat) : Nat := if x % 2 ^ 32 < 2 ^ 31 then x % 2 ^ 32 else x % 2 ^ 32 + (2 ^ 64 - 2 ^ 32)

/-- `use_sparse_grid_alltoall`, SA 68-80: the local number of elements is added up in an `int`. -/
def useGrid {α : Type} (N : Nat) (send : Nat → List (List α)) : Bool :=
  decide (((List.range N).map fun pe => wrap (((send pe).map List.length).sum)).sum % 2 ^ 64 / N / N ≤ 500)

/-- `sparse_alltoall_get`, SA 112-132: the buffers after the calls of the receiver; `none`: out of bounds. -/
def collect? {α : Type} (N : Nat) (calls : List (Nat × List α)) : Option (List (List α)) :=
  calls.foldlM (fun out c => if c.1 < out.length then some (out.set c.1 c.2) else none) (List.replicate N [])

/-- The split of `sparse_alltoallv`, SA 144-151. -/
def splitSend? {α : Type} (N : Nat) (sbuf : List α) (scnt sdis : List Nat) : Option (List (List α)) :=
  (List.range N).mapM fun pe => do
    let n ← scnt[pe]?
    let d ← sdis[pe]?
    Grid.slice? sbuf d n

/-- The end of `sparse_alltoallv`, SA 155-157. -/
def joinRecv? {α : Type} (N : Nat) (recv : List (List α)) (rbuf : List α) (rdis : List Nat) : Option (List α) :=
  (List.range N).foldlM (fun out pe => do
    let x ← recv[pe]?
    let d ← rdis[pe]?
    Grid.write? out d x) rbuf

/-- The calls of the receiver of `sparse_alltoall`, SA 83-110.  The direct exchange is replaced by its result: C51_direct shows that
every execution has this result. -/
def calls? {α : Type} (N : Nat) (z : α) (send : Nat → List (List α)) (me : Nat) : Option (List (Nat × List α)) :=
  if useGrid N send then Grid.sparseAlltoallGrid? N z send me else some ((List.range N).map fun pe => (pe, (send pe).getD me []))

/-- `sparse_alltoall_get`, SA 112-132, on rank `me`. -/
def get? {α : Type} (N : Nat) (z : α) (send : Nat → List (List α)) (me : Nat) : Option (List (List α)) := do
  collect? N (← calls? N z send me)

/-- `sparse_alltoallv`, SA 135-158, on rank `me`: the receive buffer afterwards. -/
def sparseAlltoallv? {α : Type} (N : Nat) (z : α) (call : Nat → Grid.Call α) (me : Nat) : Option (List α) := do
  let send ← (List.range N).mapM fun pe => splitSend? N (call pe).sbuf (call pe).scnt (call pe).sdis
  let recv ← get? N z (fun pe => send.getD pe []) me
  joinRecv? N recv (call me).rbuf (call me).rdis

/-! ## The doubling allreduce

The values are elements of a type with a zero and an addition: integers of any width. -/

section
variable {α : Type} [Zero α] [Add α] [DecidableEq α]

/-- SR 78-82: the entries below `size` that are not zero.  (An entry out of bounds, which is undefined, is zero here: C52 assumes that
the buffers have `size` entries.) -/
def sparse (size : Nat) (buffer : List α) : List (Nat × α) :=
  (List.range size).filterMap fun i => if buffer.getD i 0 ≠ 0 then some (i, buffer.getD i 0) else none

/-- SR 101-103; `none`: out of bounds. -/
def addSparse? (buffer : List α) (m : List (Nat × α)) : Option (List α) :=
  m.foldlM (fun b x => if x.1 < b.length then some (b.set x.1 (b.getD x.1 0 + x.2)) else none) buffer

/-- SR 66-73. -/
def neighbor (rank iteration : Nat) : Nat :=
  if rank % (2 * 2 ^ iteration) < 2 * 2 ^ iteration / 2 then rank + 2 ^ iteration else rank - 2 ^ iteration

/-- `inplace_sparse_allreduce`, the loop SR 65-104 from an iteration, followed by `k` with the buffer.  The loop runs at most `fuel`
rounds: with more rounds left the program fails.  Shifts of `int` beyond its limits are not modelled. -/
def doubling (N size rank : Nat) (eager : Nat → Bool) : Nat → Nat → List α → (List α → Prog (List (Nat × α)) β) → Prog (List (Nat × α)) β
  | 0, _, _, _ => .fail
  | fuel + 1, iteration, buffer, k =>
    if 2 * 2 ^ iteration < N + 1 then
      .send (neighbor rank iteration) (eager iteration) (sparse size buffer) <|
        .recv (neighbor rank iteration) fun m => .wait (neighbor rank iteration) <|
          match addSparse? buffer m with
          | some b => doubling N size rank eager fuel (iteration + 1) b k
          | none => .fail
    else k buffer

end

end Verif.Net
