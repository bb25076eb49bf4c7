import Verif.Util

/-!
# Model of the binary reduction tree

Source: `kaminpar-mpi/binary_reduction_tree.h` (RT), `kaminpar-mpi/wrapper.h` (W).

`perform_binary_reduction` is called by all ranks of a communicator.  The ranks are asynchronous: a step of the system is a step of one
rank (or of two, for messages that are handed over directly).  MPI delivers the messages from one rank to another in the order in which
they were sent.  The buffers and the combiner are arbitrary.
-/

namespace Verif.Tree
variable {α : Type}

/-- RT 19-23. -/
inductive Role where
  | sender
  | receiver
  | noop
  deriving DecidableEq

/-- The role of a rank, RT 40-48 (`std::ceil(active / 2.0)` is exact for an `int`). -/
def role (rank active : Nat) : Role :=
  if rank = 0 ∧ active % 2 = 1 then .noop
  else if rank < (active + 1) / 2 then .receiver
  else .sender

/-- `active = active / 2 + active % 2`, RT 59. -/
def next (active : Nat) : Nat := active / 2 + active % 2

/-- A rank is at the head of the loop RT 35 with the values of `active` and `sendbuf`, or has returned; `none` is the value `{}` of
RT 53. -/
inductive Proc (α : Type) where
  | run (active : Nat) (buf : α)
  | done (ret : Option α)

/-- The ranks and the messages on their way: `net src dst` is the queue from `src` to `dst`. -/
structure St (α : Type) where
  procs : Nat → Proc α
  net : Nat → Nat → List α

/-- RT 27-33: with one rank the combiner is applied to the empty buffer. -/
def start (N : Nat) (comb : α → α → α) (empty : α) (buf : Nat → α) : St α :=
  ⟨fun rank => if N = 1 then .done (some (comb (buf rank) empty)) else .run N (buf rank), fun _ _ => []⟩

/-- A step of a rank that does not communicate: the end of the loop RT 35, 62; `continue` in RT 36-38; a round without a partner. -/
inductive Local (N : Nat) : St α → St α → Prop
  | exit (s : St α) (rank active : Nat) (buf : α) (hr : rank < N) (hp : s.procs rank = .run active buf) (ha : ¬ 1 < active) :
      Local N s { s with procs := upd s.procs rank (.done (some buf)) }
  | continue (s : St α) (rank active : Nat) (buf : α) (hr : rank < N) (hp : s.procs rank = .run active buf) (ha : 1 < active)
      (hk : active ≤ rank) : Local N s { s with procs := upd s.procs rank (.run active buf) }
  | noop (s : St α) (rank active : Nat) (buf : α) (hr : rank < N) (hp : s.procs rank = .run active buf) (ha : 1 < active)
      (hk : ¬ active ≤ rank) (hrole : role rank active = .noop) :
      Local N s { s with procs := upd s.procs rank (.run (next active) buf) }

/-- A step of the system with buffered messages: `mpi::send` (RT 50-53) returns at once, `mpi::probe_recv` (RT 54-56, W 215-222) waits
for the next message from the partner. -/
inductive Step (N : Nat) (comb : α → α → α) : St α → St α → Prop
  | loc {s s' : St α} (h : Local N s s') : Step N comb s s'
  | send (s : St α) (rank active : Nat) (buf : α) (hr : rank < N) (hp : s.procs rank = .run active buf) (ha : 1 < active)
      (hk : ¬ active ≤ rank) (hrole : role rank active = .sender) :
      Step N comb s ⟨upd s.procs rank (.done none),
        upd s.net rank (upd (s.net rank) (rank - active / 2) (s.net rank (rank - active / 2) ++ [buf]))⟩
  | recv (s : St α) (rank active : Nat) (buf : α) (m : α) (rest : List α) (hr : rank < N)
      (hp : s.procs rank = .run active buf) (ha : 1 < active) (hk : ¬ active ≤ rank) (hrole : role rank active = .receiver)
      (hm : s.net (rank + active / 2) rank = m :: rest) :
      Step N comb s ⟨upd s.procs rank (.run (next active) (comb buf m)),
        upd s.net (rank + active / 2) (upd (s.net (rank + active / 2)) rank rest)⟩

/-- A step of the system without buffers: `mpi::send` only returns when the partner receives the message.  (The standard lets MPI choose
between both for each message.) -/
inductive SyncStep (N : Nat) (comb : α → α → α) : St α → St α → Prop
  | loc {s s' : St α} (h : Local N s s') : SyncStep N comb s s'
  | exchange (s : St α) (src dst a b : Nat) (x y : α) (hs : src < N) (hd : dst < N) (hsd : src ≠ dst)
      (hps : s.procs src = .run a x) (ha : 1 < a) (hks : ¬ a ≤ src) (hrs : role src a = .sender) (hto : dst = src - a / 2)
      (hpd : s.procs dst = .run b y) (hb : 1 < b) (hkd : ¬ b ≤ dst) (hrd : role dst b = .receiver) (hfrom : src = dst + b / 2) :
      SyncStep N comb s { s with procs := upd (upd s.procs src (.done none)) dst (.run (next b) (comb y x)) }

/-- The states that a system can reach by a number of steps. -/
inductive Reach (step : St α → St α → Prop) (s0 : St α) : Nat → St α → Prop
  | refl : Reach step s0 0 s0
  | tail {n : Nat} {s s' : St α} (h : Reach step s0 n s) (hs : step s s') : Reach step s0 (n + 1) s'

/-- The combiner of `reduce_buckets_binary_tree`, `kaminpar-dist/refinement/balancer/reductions.h` 165-173: entrywise sums; `none` if an
access is out of bounds.  (Weights are unbounded integers.) -/
def addBuckets (lhs rhs : Option (List Int)) : Option (List Int) := do
  let l ← lhs
  let r ← rhs
  if l.length ≤ r.length then some (l.zipWith (· + ·) r) else none

end Verif.Tree
