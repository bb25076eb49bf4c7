import Verif.Tree.Model

/-!
# Model of the distributed node balancer

Sources: `kaminpar-dist/refinement/balancer/node_balancer.cc` (NB), `kaminpar-dist/refinement/balancer/reductions.h` (R),
`kaminpar-dist/datastructures/distributed_partitioned_graph.h` (PG).

Each rank has its own copy of the block weights and of the blocks of the nodes that it knows (its own nodes and its ghost nodes).
Nodes are named by their global ids.  Weights are unbounded integers.  Which nodes a rank proposes to move (its priority queues, the gains, the
cut-off buckets) is arbitrary, and so are the random numbers.
-/

namespace Verif.NodeBalancer

/-- `Candidate`, NB 38-44.  Gains only determine the order in which candidates are tried. -/
structure Cand where
  id : Nat
  «from» : Nat
  «to» : Nat
  weight : Int
  gain : Int
  deriving DecidableEq

/-- `kInvalidGlobalNodeID`, R 30-36. -/
def kInvalid : Nat := 2 ^ 64 - 1

/-- The limits and block weights that a combination reads, and the sort (any order of candidates with equal gains). -/
structure Env where
  bw : Nat → Int
  maxw : Nat → Int
  maxNodes : Nat
  sort : List Cand → List Cand

/-! ## The combiner of `reduce_candidates` -/

/-- The variables of the loop R 93-113. -/
structure Pick where
  cands : List Cand
  deltas : Nat → Int
  total : Int
  rejected : Nat
  accepted : Nat

/-- R 89-113 from position `i`, for `n` more candidates; `none`: out of bounds. -/
def pickLoop? (E : Env) (fr : Nat) (s : Pick) (i : Nat) : Nat → Option Pick
  | 0 => some s
  | n + 1 => do
    let c ← s.cands[i]?
    if fr ≠ c.to ∧ E.bw c.to + s.deltas c.to + c.weight > E.maxw c.to then
      pickLoop? E fr { s with cands := s.cands.set i { c with id := kInvalid }, rejected := s.rejected + 1 } (i + 1) n
    else
      let s := { s with deltas := upd s.deltas c.to (s.deltas c.to + c.weight), total := s.total + c.weight, accepted := s.accepted + 1 }
      if s.total ≥ E.bw fr - E.maxw fr ∨ s.accepted ≥ E.maxNodes then some s
      else pickLoop? E fr s (i + 1) n

/-- `std::swap` of two elements; `none`: out of bounds. -/
def swap? (l : List Cand) (i j : Nat) : Option (List Cand) := do
  let a ← l[i]?
  let b ← l[j]?
  some ((l.set i b).set j a)

/-- The loop R 117-122, with at most `fuel` iterations; `none`: out of bounds, or one more iteration. -/
def fixPos? (accepted i : Nat) : Nat → List Cand → Nat → Option (List Cand × Nat)
  | 0, _, _ => none
  | fuel + 1, cands, rejected => do
    let c ← cands[i]?
    if c.id = kInvalid then
      if accepted + rejected = 0 then none
      else do
        let cands ← swap? cands i (accepted + rejected - 1)
        fixPos? accepted i fuel cands (rejected - 1)
    else some (cands, rejected)

/-- R 115-123: remove the rejected candidates.  (If `rejected` were 0, `--rejected` would wrap around; this does not happen.) -/
def compact? (cands : List Cand) (accepted rejected : Nat) : Option (List Cand) :=
  ((List.range accepted).foldlM (fun (s : List Cand × Nat) i => fixPos? accepted i (s.2 + 1) s.1 s.2) (cands, rejected)).map
    fun s => s.1.take accepted

/-- R 64-130: one round of the loop R 61 for the candidates of one block; the new deltas and winners. -/
def region? (E : Env) (fr : Nat) (l r : List Cand) (deltas : Nat → Int) (winners : List Cand) : Option ((Nat → Int) × List Cand) := do
  let cands := E.sort (l ++ r)
  let s ← pickLoop? E fr ⟨cands, deltas, 0, 0, 0⟩ 0 cands.length
  let w ← compact? s.cands s.accepted s.rejected
  some (s.deltas, winners ++ w)

/-- R 61-131, at most `fuel` rounds (`none`: one more). -/
def mergeLoop? (E : Env) : Nat → List Cand → List Cand → (Nat → Int) → List Cand → Option (List Cand × List Cand × (Nat → Int) × List Cand)
  | fuel, x :: lhs, y :: rhs, deltas, winners =>
    match fuel with
    | 0 => none
    | fuel + 1 => do
      let fr := min x.from y.from
      let s ← region? E fr ((x :: lhs).takeWhile (·.from = fr)) ((y :: rhs).takeWhile (·.from = fr)) deltas winners
      mergeLoop? E fuel ((x :: lhs).dropWhile (·.from = fr)) ((y :: rhs).dropWhile (·.from = fr)) s.1 s.2
  | _, lhs, rhs, deltas, winners => some (lhs, rhs, deltas, winners)

/-- `add_remaining_candidates`, R 134-148. -/
def addRemaining (E : Env) : List Cand → (Nat → Int) → List Cand → (Nat → Int) × List Cand
  | [], deltas, winners => (deltas, winners)
  | c :: l, deltas, winners =>
    if c.from = c.to ∨ E.bw c.to + deltas c.to + c.weight ≤ E.maxw c.to then
      addRemaining E l (if c.from ≠ c.to then upd deltas c.to (deltas c.to + c.weight) else deltas) (winners ++ [c])
    else addRemaining E l deltas winners

/-- The combiner, R 41-154. -/
def combine? (E : Env) (lhs rhs : List Cand) : Option (List Cand) := do
  let s ← mergeLoop? E (lhs.length + rhs.length) lhs rhs (fun _ => 0) []
  let s1 := addRemaining E s.1 s.2.2.1 s.2.2.2
  let s2 := addRemaining E s.2.1 s1.1 s1.2
  some s2.2

/-- The combiner on results. -/
def combine (E : Env) (lhs rhs : Option (List Cand)) : Option (List Cand) := do
  let l ← lhs
  let r ← rhs
  combine? E l r

/-- `reduce_candidates`: the result of rank 0 in some execution of the reduction tree (`none`: undefined behaviour). -/
def Reduced (N : Nat) (E : Env) (picks : Nat → List Cand) (winners : Option (List Cand)) : Prop :=
  ∃ n s, Tree.Reach (Tree.Step N (combine E)) (Tree.start N (combine E) (some []) fun r => some (picks r)) n s ∧
    s.procs 0 = .done (some winners)

/-! ## Moves -/

/-- The state of a rank: the blocks of the nodes (only meaningful for the nodes it knows) and the block weights. -/
structure Rank where
  part : Nat → Nat
  bw : Nat → Int

/-- `set_block`, PG 154-163. -/
def setBlock (wt : Nat → Int) (s : Rank) (u b : Nat) : Rank :=
  let w1 := upd s.bw (s.part u) (s.bw (s.part u) - wt u)
  ⟨upd s.part u b, upd w1 b (w1 b + wt u)⟩

/-- `perform_move` with `update_block_weights`, NB 372-412; the priority queue is not modelled. -/
def performMove (wt : Nat → Int) (known : Nat → Bool) (s : Rank) (c : Cand) : Rank :=
  if c.from = c.to then s
  else if known c.id then setBlock wt s c.id c.to
  else
    let w1 := upd s.bw c.from (s.bw c.from - c.weight)
    ⟨s.part, upd w1 c.to (w1 c.to + c.weight)⟩

/-- The loop NB 281-287: the next block that can take the node, starting at `cur`.  After `k` iterations every block was tried and the loop
does not end: `none`. -/
def search? (k : Nat) (bw maxw : Nat → Int) (fr : Nat) (w : Int) : Nat → Nat → Option Nat
  | 0, _ => none
  | fuel + 1, cur =>
    if cur = fr ∨ bw cur + w > maxw cur then search? k bw maxw fr w fuel (if cur + 1 ≥ k then 0 else cur + 1)
    else some cur

/-- The loop NB 275-292 on the root: nodes without a target block get one; the candidates are changed in place. -/
def assignLoop? (k : Nat) (maxw : Nat → Int) (wt : Nat → Int) (known : Nat → Bool) :
    List Cand → Nat → Rank → Option (Rank × List Cand)
  | [], _, s => some (s, [])
  | c :: l, cur, s =>
    if c.from = c.to then do
      let cur ← search? k s.bw maxw c.from c.weight k cur
      let c' := { c with «to» := cur }
      let r ← assignLoop? k maxw wt known l cur (performMove wt known s c')
      some (r.1, c' :: r.2)
    else do
      let r ← assignLoop? k maxw wt known l cur s
      some (r.1, c :: r.2)

/-- NB 265-293: the moves on the root; the candidates that are broadcast. -/
def rootMoves? (k : Nat) (maxw : Nat → Int) (wt : Nat → Int) (known : Nat → Bool) (cands : List Cand) (s : Rank) : Option (Rank × List Cand) :=
  let s1 := cands.foldl (fun s c => if c.from ≠ c.to then performMove wt known s c else s) s
  assignLoop? k maxw wt known cands 0 s1

/-- The system: `n` nodes with weights, `k` blocks with limits, `N` ranks, the owners of the nodes and the nodes that the ranks know. -/
structure Sys where
  N : Nat
  n : Nat
  k : Nat
  maxw : Nat → Int
  wt : Nat → Int
  owner : Nat → Nat
  known : Nat → Nat → Bool

/-- `perform_sequential_round`, NB 265-314, from the winners on rank 0: the broadcast and the moves on the other ranks. -/
def seqMoves? (S : Sys) (winners : List Cand) (s : Nat → Rank) : Option (Nat → Rank) := do
  let r ← rootMoves? S.k S.maxw S.wt (S.known 0) winners (s 0)
  some fun rank => if rank = 0 then r.1 else r.2.foldl (performMove S.wt (S.known rank)) (s rank)

/-- A sequential round in which the ranks propose `picks`. -/
def SeqRound (S : Sys) (maxNodes : Nat) (sort : List Cand → List Cand) (picks : Nat → List Cand) (s s' : Nat → Rank) : Prop :=
  ∃ winners, Reduced S.N ⟨(s 0).bw, S.maxw, maxNodes, sort⟩ picks (some winners) ∧ seqMoves? S winners s = some s'

/-! ## Parallel rounds -/

/-- `block_underload`, NB 424-432. -/
def underload (maxw bw : Nat → Int) (b : Nat) : Int := max 0 (maxw b - bw b)

/-- `block_overload`, NB 414-422. -/
def overload (maxw bw : Nat → Int) (b : Nat) : Int := max 0 (bw b - maxw b)

/-- The variables of the loop NB 628-640. -/
structure Dice where
  cands : List Cand
  rejected : Nat
  deltas : Nat → Int

/-- NB 624-640: candidates are accepted or rejected at random (`rnd` is the value of the next call); a rejected one is swapped to the end.
At most `fuel` iterations; `none`: one more, or out of bounds. -/
def diceLoop? (rnd : Nat → Bool) : Nat → Nat → Nat → Dice → Option Dice
  | 0, i, _, s => if i < s.cands.length - s.rejected then none else some s
  | fuel + 1, i, t, s =>
    if i < s.cands.length - s.rejected then do
      let c ← s.cands[i]?
      if rnd t then
        let d := upd s.deltas c.to (s.deltas c.to + c.weight)
        diceLoop? rnd fuel (i + 1) (t + 1) { s with deltas := upd d c.from (d c.from - c.weight) }
      else do
        let cands ← swap? s.cands i (s.cands.length - (s.rejected + 1))
        diceLoop? rnd fuel i (t + 1) { s with cands := cands, rejected := s.rejected + 1 }
    else some s

/-- The sum of an entry over all ranks (`MPI_Allreduce`, NB 642-649). -/
def sumRanks (N : Nat) (f : Nat → Int) : Int := ((List.range N).map f).sum

/-- NB 651-659. -/
def balanced (S : Sys) (bw deltas : Nat → Int) : Bool :=
  (List.range S.k).all fun b => !(overload S.maxw bw b == 0 && decide (underload S.maxw bw b < deltas b))

/-- The loop NB 617-660 on all ranks, with `attempts` attempts left and the candidates and random numbers of each rank; the dice of the
last attempt of each rank and `balanced_moves`.  The block weights are the same on all ranks. -/
def attempts? (S : Sys) (bw : Nat → Int) (rnd : Nat → Nat → Nat → Bool) : Nat → (Nat → Dice) → Bool → Option ((Nat → Dice) × Bool)
  | 0, d, b => some (d, b)
  | n + 1, d, b =>
    if b then some (d, b)
    else do
      let l ← (List.range S.N).mapM fun r => diceLoop? (rnd n r) (d r).cands.length 0 0 ⟨(d r).cands, 0, fun _ => 0⟩
      let d' := fun r => l.getD r ⟨[], 0, fun _ => 0⟩
      attempts? S bw rnd n d' (balanced S bw fun b => sumRanks S.N fun r => (d' r).deltas b)

/-- `perform_moves(.., false)`, NB 366-412, on the rank that owns the candidates. -/
def performMoves (cands : List Cand) (part : Nat → Nat) : Nat → Nat :=
  cands.foldl (fun part c => if c.from = c.to then part else upd part c.id c.to) part

/-- NB 678-699: every rank that knows a moved node gets its block from the owner. -/
def syncGhosts (S : Sys) (acc : Nat → List Cand) (s : Nat → Rank) (rank : Nat) : Nat → Nat :=
  (List.range S.N).foldl (fun part pe => if pe = rank then part else
    (acc pe).foldl (fun part c => if S.known rank c.id then upd part c.id ((s pe).part c.id) else part) part) (s rank).part

/-- `perform_parallel_round`, NB 613-707, in which the ranks propose `picks`: the new state and the value returned.  `none`: undefined
behaviour. -/
def parRound? (S : Sys) (diceAttempts : Nat) (accept : Bool) (rnd : Nat → Nat → Nat → Bool) (picks : Nat → List Cand)
    (s : Nat → Rank) : Option ((Nat → Rank) × Bool) := do
  let r ← attempts? S (s 0).bw rnd (max 1 diceAttempts) (fun r => ⟨picks r, 0, fun _ => 0⟩) false
  if r.2 || accept then
    let acc := fun rank => (r.1 rank).cands.take ((r.1 rank).cands.length - (r.1 rank).rejected)
    let s1 : Nat → Rank := fun rank =>
      ⟨performMoves (acc rank) (s rank).part, fun b => (s rank).bw b + sumRanks S.N fun pe => (r.1 pe).deltas b⟩
    some (fun rank => ⟨syncGhosts S acc s1 rank, (s1 rank).bw⟩, true)
  else some (s, false)

end Verif.NodeBalancer
