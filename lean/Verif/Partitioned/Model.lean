import Verif.Sum

/-!
# Model of concurrent moves in a partitioned graph

Source: `kaminpar-shm/datastructures/partitioned_graph.h` (PG).  Threads execute operations whose atomic
accesses to the shared arrays are single steps; every interleaving is possible.  Memory is sequentially
consistent; weights are integers without overflow.  `kInvalidBlockID` is `none`.
-/

namespace Verif.Partitioned

/-- The operations of PG: `move(u, from, to, max)`, PG 123-137; `set_block<true>(u, to)`, PG 152-165.  The
callers of `move_block_weight` (`lp_refiner.cc` 110-117, followed by `set_block<false>`, lines 130-132)
perform the same steps as `move`. -/
inductive Op
  | move (u src dst : Nat) (max : Int)
  | setBlock (u dst : Nat)
  deriving DecidableEq, Repr

def Op.node : Op → Nat
  | .move u _ _ _ => u
  | .setBlock u _ => u

/-- Where a thread is inside its operation. -/
inductive PC
  | idle
  /-- before the load of `block_weight(to)`, PG 182 -/
  | moveLoad (u src dst : Nat) (max : Int)
  /-- with the loaded weight, before the check and the compare-exchange, PG 182-190 -/
  | moveCas (u src dst : Nat) (max expected : Int)
  /-- before `decrease_block_weight(from, delta)`, PG 191 -/
  | moveDec (u src dst : Nat) (max : Int)
  /-- before the store of `set_block<false>`, PG 164 -/
  | moveStore (u src dst : Nat) (max : Int)
  /-- before the load of `block(u)`, PG 158 -/
  | setLoad (u dst : Nat)
  /-- before `decrease_block_weight(from, weight)`, PG 159 -/
  | setDec (u src dst : Nat)
  /-- before `increase_block_weight(to, weight)`, PG 161 -/
  | setInc (u : Nat) (src : Option Nat) (dst : Nat)
  /-- before the store, PG 164 -/
  | setStore (u : Nat) (src : Option Nat) (dst : Nat)
  deriving DecidableEq, Repr

/-- The node a thread works on. -/
def PC.node? : PC → Option Nat
  | .idle => none
  | .moveLoad u .. | .moveCas u .. | .moveDec u .. | .moveStore u .. | .setLoad u .. | .setDec u ..
  | .setInc u .. | .setStore u .. => some u

/-- `_partition`, `_block_weights`, the threads, and the finished operations with their results, oldest
first. -/
structure State where
  part : Nat → Option Nat
  bw : Nat → Int
  pc : Nat → PC
  hist : List (Op × Bool)

/-- The next atomic step of a thread that is inside an operation; `w` are the node weights. -/
def State.next (w : Nat → Int) (s : State) (t : Nat) : State :=
  match s.pc t with
  | .idle => s
  | .moveLoad u src dst max => { s with pc := upd s.pc t (.moveCas u src dst max (s.bw dst)) }
  | .moveCas u src dst max e =>
    if e + w u ≤ max then
      if s.bw dst = e then
        { s with bw := upd s.bw dst (e + w u), pc := upd s.pc t (.moveDec u src dst max) }
      else { s with pc := upd s.pc t (.moveCas u src dst max (s.bw dst)) }
    else { s with pc := upd s.pc t .idle, hist := s.hist ++ [(.move u src dst max, false)] }
  | .moveDec u src dst max =>
    { s with bw := upd s.bw src (s.bw src - w u), pc := upd s.pc t (.moveStore u src dst max) }
  | .moveStore u src dst max =>
    { s with part := upd s.part u (some dst), pc := upd s.pc t .idle,
             hist := s.hist ++ [(.move u src dst max, true)] }
  | .setLoad u dst =>
    match s.part u with
    | none => { s with pc := upd s.pc t (.setInc u none dst) }
    | some src => { s with pc := upd s.pc t (.setDec u src dst) }
  | .setDec u src dst =>
    { s with bw := upd s.bw src (s.bw src - w u), pc := upd s.pc t (.setInc u (some src) dst) }
  | .setInc u src dst =>
    { s with bw := upd s.bw dst (s.bw dst + w u), pc := upd s.pc t (.setStore u src dst) }
  | .setStore u _ dst =>
    { s with part := upd s.part u (some dst), pc := upd s.pc t .idle,
             hist := s.hist ++ [(.setBlock u dst, true)] }

/-- The first step of an operation: the call. -/
def Op.start : Op → PC
  | .move u src dst max => .moveLoad u src dst max
  | .setBlock u dst => .setLoad u dst

/-- The documented preconditions (PG 125-128, 153-154): node and blocks exist, `from` is the node's
block. -/
def Op.ok (n k : Nat) (part : Nat → Option Nat) : Op → Prop
  | .move u src dst _ => u < n ∧ src < k ∧ dst < k ∧ part u = some src
  | .setBlock u dst => u < n ∧ dst < k

/-- One step of one of `T` threads: it calls an operation, among those allowed by `A`, whose preconditions
hold and whose node no other thread works on, or it executes its next atomic step. -/
inductive Step (n k T : Nat) (w : Nat → Int) (A : Op → Prop) : State → State → Prop
  | call (s : State) (t : Nat) (op : Op) (ht : t < T) (hidle : s.pc t = .idle) (hA : A op)
      (hok : op.ok n k s.part)
      (hfree : ∀ t', t' < T → (s.pc t').node? ≠ some op.node) :
      Step n k T w A s { s with pc := upd s.pc t op.start }
  | next (s : State) (t : Nat) (ht : t < T) (hbusy : s.pc t ≠ .idle) : Step n k T w A s (s.next w t)

/-- Any number of steps. -/
inductive Reach (n k T : Nat) (w : Nat → Int) (A : Op → Prop) : State → State → Prop
  | refl (s : State) : Reach n k T w A s s
  | step {s s' s'' : State} : Reach n k T w A s s' → Step n k T w A s' s'' → Reach n k T w A s s''

/-! ## Initial block weights -/

/-- `init_block_weights_seq`, PG 306-312: the weights start at 0 (PG 80). -/
def initSeq (n : Nat) (w : Nat → Int) (part : Nat → Option Nat) : Nat → Int :=
  (List.range n).foldl (fun bw u => match part u with
    | none => bw
    | some b => upd bw b (bw b + w u)) fun _ => 0

/-- One range of the first loop of `init_block_weights_par`, PG 287-294, in the thread-local array. -/
def initLocal (w : Nat → Int) (part : Nat → Option Nat) (us : List Nat) (bw : Nat → Int) : Nat → Int :=
  us.foldl (fun bw u => match part u with
    | none => bw
    | some b => upd bw b (bw b + w u)) bw

/-- `init_block_weights_par` for `k < 65536`, PG 281-303.  `chunks` are the ranges in the order in which
they are executed, each with the thread that executes it; threads do not share data. -/
def initPar (w : Nat → Int) (part : Nat → Option Nat) (T : Nat) (chunks : List (Nat × List Nat)) :
    Nat → Int :=
  let ets : Nat → Nat → Int := chunks.foldl (fun ets c => upd ets c.1 (initLocal w part c.2 (ets c.1)))
    fun _ _ => 0
  fun b => (List.range T).foldl (fun sum t => sum + ets t b) 0

/-- `init_block_weights_par` for `k ≥ 65536`, PG 274-279; the atomic additions in any order `us`.
`none`: unassigned nodes are not skipped, `_block_weights` is accessed at `kInvalidBlockID`. -/
def initAtomic (w : Nat → Int) (part : Nat → Option Nat) (us : List Nat) : Option (Nat → Int) :=
  us.foldlM (fun bw u => match part u with
    | none => none
    | some b => some (upd bw b (bw b + w u))) fun _ => 0

end Verif.Partitioned
