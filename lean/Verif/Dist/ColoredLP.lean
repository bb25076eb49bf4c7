import Verif.Dist.Coloring

/-!
# Model of the coloured label propagation

Source: `kaminpar-dist/refinement/lp/clp_refiner.cc` (CLP).

Positions of nodes in the order by colours are called positions (`seq_u` in the source).  The following is arbitrary, the model covers
all possibilities: which nodes are skipped because they are not active, the values of `_block_weight_deltas` that a parallel loop sees
while it is running, the order of the entries of a rating map, random bits, the order in which `std::sort` leaves candidates, which
colours are excluded (CLP 151-193), and the probabilities of moves together with the sums that they are computed from (CLP 573-602 and
660-666).  `none` is undefined behaviour, a failed assertion or a process that waits forever.  Block weights are unbounded integers.
`_block_weight_deltas` is changed by a parallel loop without synchronization; the model adds up all changes.
-/

namespace Verif.Dist
open Verif

/-! ## The order of the nodes -/

/-- The order of the nodes of all processes by colours: `start p c` is the first position of colour `c` on process `p`
(`_color_sizes`), `node p i` the node at position `i` (`_color_sorted_nodes`). -/
structure ColorOrder where
  colors : Nat
  start : Nat → Nat → Nat
  node : Nat → Nat → Nat

/-- The number of colours of one process, CLP 99: the largest colour of an empty array does not exist. -/
def localColors? (totalN : Nat) (col : Nat → Nat) : Option Nat :=
  if totalN = 0 then none else some (((List.range totalN).map col).foldl max 0 + 1)

/-- The inclusive prefix sums of the numbers of nodes with each colour, CLP 128-133. -/
def colorSums (n : Nat) (col : Nat → Nat) (c : Nat) : Nat := ((List.range n).filter fun u => decide (col u ≤ c)).length

/-- One iteration of the loop that sorts the nodes, CLP 142-147; the state are `_color_sizes` and `_color_sorted_nodes`. -/
def placeNode? (n C : Nat) (col : Nat → Nat) (s : (Nat → Nat) × (Nat → Nat)) (u : Nat) : Option ((Nat → Nat) × (Nat → Nat)) :=
  if col u < C ∧ 0 < s.1 (col u) ∧ s.1 (col u) - 1 < n then
    some (upd s.1 (col u) (s.1 (col u) - 1), upd s.2 (s.1 (col u) - 1) u)
  else none

/-- The order of the nodes of one process, CLP 123-149, if the graph is not sorted by colours yet; the threads execute the iterations of
the last loop in the order `order`. -/
def sortByColor? (n C : Nat) (col : Nat → Nat) (order : List Nat) : Option ((Nat → Nat) × (Nat → Nat)) :=
  order.foldlM (placeNode? n C col) (colorSums n col, fun _ => 0)

/-- `initialize`, CLP 64-149, with the colours `col p` of all nodes of all processes. -/
def colorOrder? (N : Nat) (g : Nat → DGraph) (col : Nat → Nat → Nat) (order : Nat → List Nat) : Option ColorOrder :=
  ((List.range N).mapM fun p => localColors? (g p).totalN (col p)).bind fun l =>
  (forAll? N (fun _ => 0, fun _ => 0) fun p => sortByColor? (g p).n (l.foldl max 0) (col p) (order p)).map fun r =>
    ⟨l.foldl max 0, fun p => (r p).1, fun p => (r p).2⟩

/-! ## Finding moves -/

/-- `LabelPropagationMoveExecutionStrategy`. -/
inductive MoveStrategy
  | probabilistic
  | best
  | locally
  deriving DecidableEq

/-- The configuration: the number of blocks, their weight limits, and parts of `ColoredLabelPropagationRefinementContext`. -/
structure LPConfig where
  k : Nat
  limit : Nat → Int
  strategy : MoveStrategy
  iterations : Nat
  rounds : Nat
  attempts : Nat
  track : Bool

/-- What one process holds: the blocks of its nodes and ghost nodes, the block weights, and for each position the next block (`none` is
`kInvalidBlockID`) and the gain; `_block_weight_deltas`; and the sum of the gains of all its moves, which the statistics record. -/
structure LPLocal where
  part : Nat → Nat
  weights : Nat → Int
  next : Nat → Option Nat
  gains : Nat → Int
  deltas : Nat → Int
  gained : Int

/-- What is arbitrary when one process finds moves; the first argument is the position. -/
structure FindChoice where
  skip : Nat → Bool
  seen : Nat → Nat → Int
  order : Nat → List Nat → List Nat
  coin : Nat → Nat → Bool

/-- The entry of the rating map for the block `b`, CLP 828-832: a sum of 32-bit integers. -/
def rating? (adj : List (Nat × Int)) (part : Nat → Nat) (b : Nat) : Option Int :=
  ((adj.filter fun x => decide (part x.1 = b)).map (·.2)).foldlM (add? B32) 0

/-- Whether a node of weight `w` may be moved to the block `b`, CLP 841-849. -/
def fitsBlock (cfg : LPConfig) (weights seen : Nat → Int) (w : Int) (b : Nat) : Bool :=
  if cfg.track then !decide (weights b + seen b + w > cfg.limit b) else !decide (weights b + w > cfg.limit b)

/-- One entry of the rating map, CLP 838-855; the state is `best_weight` and `best_block`. -/
def pickBlock (own : Nat) (fits coin : Nat → Bool) (s : Int × Nat) (e : Nat × Int) : Int × Nat :=
  if e.1 ≠ own ∧ fits e.1 = false then s
  else if e.2 > s.1 ∨ (e.2 = s.1 ∧ coin e.1 = true) then (e.2, e.1)
  else s

/-- The move of the node at position `i`, CLP 819-868: its target and its gain. -/
def findMove? (cfg : LPConfig) (g : DGraph) (node : Nat → Nat) (ch : FindChoice) (part : Nat → Nat) (weights : Nat → Int) (i : Nat) :
    Option (Option (Nat × Int)) :=
  if ch.skip i then some none
  else
    (g.adjacent? (node i)).bind fun adj =>
    (g.nodeWeight? (node i)).bind fun w =>
    ((ch.order i (adj.map fun x => part x.1).dedup).mapM fun b =>
      if b < cfg.k then (rating? adj part b).map fun r => (b, r) else none).bind fun entries =>
    (rating? adj part (part (node i))).map fun own =>
      let best := entries.foldl (pickBlock (part (node i)) (fitsBlock cfg weights (ch.seen i) w) (ch.coin i)) (-B32, part (node i))
      if best.2 ≠ part (node i) then some (best.2, best.1 - own) else none

/-- The move of one node is written down, CLP 857-868; the state is also the number of moves. -/
def findStep? (cfg : LPConfig) (g : DGraph) (node : Nat → Nat) (ch : FindChoice) (s : LPLocal × Nat) (i : Nat) : Option (LPLocal × Nat) :=
  (findMove? cfg g node ch s.1.part s.1.weights i).bind fun m =>
    match m with
    | none => some s
    | some (b, gain) => (g.nodeWeight? (node i)).map fun w =>
      ({ s.1 with
          next := upd s.1.next i (some b)
          gains := upd s.1.gains i gain
          deltas := if cfg.track then bump (bump s.1.deltas (s.1.part (node i)) (-w)) b w else s.1.deltas }, s.2 + 1)

/-- `find_moves`, CLP 802-883, on one process for the positions `fr, …, ub - 1`. -/
def lpFind? (cfg : LPConfig) (g : DGraph) (node : Nat → Nat) (fr ub : Nat) (ch : FindChoice) (s : LPLocal) : Option (LPLocal × Nat) :=
  (List.range' fr (ub - fr)).foldlM (findStep? cfg g node ch) (s, 0)

/-! ## Executing moves -/

/-- How the threads execute an exchange, and in which order the received messages are handled on each process. -/
structure SyncSchedule where
  exec : Nat → Execution
  shuffle : Nat → List (Nat × Nat) → List (Nat × Nat)

/-- `synchronize_state`, CLP 753-800, on process `me`: the blocks of its nodes and ghost nodes afterwards.  That the messages also reset
the marks does not matter: a mark is read before the messages of its node are created, and all marks are reset afterwards. -/
def lpSync? (N : Nat) (g : Nat → DGraph) (node : Nat → Nat → Nat) (sch : SyncSchedule) (s : Nat → LPLocal) (me : Nat) : Option (Nat → Nat) :=
  (exchange? N (0, 0) (fun p => sendBuffers? (sch.exec p).threads N
    (fun i => toPeMessages? (g p) (fun _ => ((s p).next i).isNone) (fun u _ => (u, (s p).part u)) (node p i))
    (sch.exec p).count (sch.exec p).fill) me).bind fun calls =>
  receive? (g me) (g me).totalN (sch.shuffle me) calls (s me).part

/-- The state of one process during an attempt: `moves` are the positions that were moved, with their blocks before. -/
structure Attempt where
  loc : LPLocal
  deltas : Nat → Int
  moves : List (Nat × Nat)
  gain : Int

/-- One iteration of the loop over the nodes, CLP 648-685. -/
def tryMove? (g : DGraph) (node : Nat → Nat) (flip : Nat → Bool) (s : Attempt) (i : Nat) : Option Attempt :=
  match s.loc.next i with
  | none => some s
  | some b =>
    if b = s.loc.part (node i) then some s
    else if flip i then
      (g.nodeWeight? (node i)).map fun w =>
        { loc := { s.loc with part := upd s.loc.part (node i) b, next := upd s.loc.next i none }
          deltas := bump (bump s.deltas (s.loc.part (node i)) (-w)) b w
          moves := s.moves ++ [(i, s.loc.part (node i))]
          gain := s.gain + s.loc.gains i }
    else some s

/-- Whether no block becomes too heavy, CLP 700-710. -/
def staysFeasible (cfg : LPConfig) (weights total : Nat → Int) : Bool :=
  (List.range cfg.k).all fun b => !(decide (total b > 0) && decide (weights b + total b > cfg.limit b))

/-- The moves are reverted, CLP 714-720. -/
def rollback (node : Nat → Nat) (s : LPLocal) (moves : List (Nat × Nat)) : LPLocal :=
  moves.foldl (fun s m => { s with next := upd s.next m.1 (some (s.part (node m.1))), part := upd s.part (node m.1) m.2 }) s

/-- The marks of the moved nodes are reset, CLP 727-733. -/
def unmark (node : Nat → Nat) (s : LPLocal) (moves : List (Nat × Nat)) : LPLocal :=
  moves.foldl (fun s m => { s with next := upd s.next m.1 (some (s.part (node m.1))) }) s

/-- What each process does if the moves are kept, CLP 721-747. -/
def commit? (N : Nat) (g : Nat → DGraph) (node : Nat → Nat → Nat) (sch : SyncSchedule) (at_ : Nat → Attempt) (total : Nat → Int) (p : Nat) :
    Option LPLocal :=
  (lpSync? N g node sch (fun q => (at_ q).loc) p).map fun part =>
    unmark (node p) { (at_ p).loc with
      part := part
      weights := fun b => (at_ p).loc.weights b + total b
      gained := (at_ p).loc.gained + (at_ p).gain } (at_ p).moves

/-- An unused state. -/
def LPLocal.zero : LPLocal := ⟨fun _ => 0, fun _ => 0, fun _ => none, fun _ => 0, fun _ => 0, 0⟩

/-- `try_probabilistic_moves`, CLP 617-751, on all processes; the result is also whether the moves were kept.  If only some processes
keep the moves, they wait for the others forever. -/
def tryMoves? (N : Nat) (cfg : LPConfig) (g : Nat → DGraph) (node fr ub : Nat → Nat → Nat) (c : Nat) (flip : Nat → Nat → Bool)
    (sch : SyncSchedule) (s : Nat → LPLocal) : Option (Bool × (Nat → LPLocal)) :=
  (forAll? N ⟨LPLocal.zero, fun _ => 0, [], 0⟩ fun p =>
    (List.range' (fr p c) (ub p c - fr p c)).foldlM (tryMove? (g p) (node p) (flip p)) ⟨s p, fun _ => 0, [], 0⟩).bind fun at_ =>
  let total : Nat → Int := fun b => ((List.range N).map fun p => (at_ p).deltas b).sum
  let ok : Nat → Bool := fun p => staysFeasible cfg (at_ p).loc.weights total
  if (List.range N).all ok then (forAll? N LPLocal.zero (commit? N g node sch at_ total)).map fun r => (true, r)
  else if (List.range N).all fun p => !ok p then some (false, fun p => rollback (node p) (at_ p).loc (at_ p).moves)
  else none

/-- `perform_probabilistic_moves`, CLP 567-615: `m` further attempts. -/
def probabilisticMoves? (N : Nat) (cfg : LPConfig) (g : Nat → DGraph) (node fr ub : Nat → Nat → Nat) (c : Nat)
    (flip : Nat → Nat → Nat → Bool) (sch : Nat → SyncSchedule) : Nat → Nat → (Nat → LPLocal) → Option (Nat → LPLocal)
  | 0, _, s => some s
  | m + 1, t, s => (tryMoves? N cfg g node fr ub c (flip t) (sch t) s).bind fun r =>
      if r.1 then some r.2 else probabilisticMoves? N cfg g node fr ub c flip sch m (t + 1) r.2

/-- `MoveCandidate`, `clp_refiner.h:40-47`. -/
structure Candidate where
  position : Nat
  node : Nat
  source : Nat
  target : Nat
  gain : Int
  weight : Int
  deriving DecidableEq

/-- The candidate at position `i`, CLP 326-337. -/
def candidateAt? (g : DGraph) (node : Nat → Nat) (s : LPLocal) (i : Nat) : Option (Option Candidate) :=
  match s.next i with
  | none => some none
  | some b =>
    if b = s.part (node i) then some none
    else
      (g.localToGlobal? (node i)).bind fun a =>
      (g.nodeWeight? (node i)).map fun w => some ⟨i, a, s.part (node i), b, s.gains i, w⟩

/-- The candidates of one process, CLP 325-337. -/
def candidates? (g : DGraph) (node : Nat → Nat) (fr ub : Nat) (s : LPLocal) : Option (List Candidate) :=
  ((List.range' fr (ub - fr)).mapM (candidateAt? g node s)).map fun l => l.filterMap id

/-- `try_add_candidate`, CLP 450-457; the state are the accepted candidates and `_block_weight_deltas`. -/
def tryAdd (cfg : LPConfig) (weights : Nat → Int) (s : List Candidate × (Nat → Int)) (c : Candidate) : List Candidate × (Nat → Int) :=
  if weights c.target + s.2 c.target + c.weight ≤ cfg.limit c.target then (s.1 ++ [c], bump s.2 c.target c.weight) else s

/-- The loops of `reduce_move_candidates`, CLP 459-509: while both lists are not empty, the candidates with the smallest source block are
removed from both, sorted and added.  Each iteration removes a candidate; `fuel` bounds their number. -/
def mergeLoop (cfg : LPConfig) (weights : Nat → Int) (sort : List Candidate → List Candidate) :
    Nat → List Candidate → List Candidate → List Candidate × (Nat → Int) → List Candidate × (Nat → Int)
  | _, [], b, s => b.foldl (tryAdd cfg weights) s
  | _, a, [], s => a.foldl (tryAdd cfg weights) s
  | 0, _, _, s => s
  | fuel + 1, x :: a, y :: b, s =>
    let f := min x.source y.source
    mergeLoop cfg weights sort fuel ((x :: a).dropWhile fun c => c.source == f) ((y :: b).dropWhile fun c => c.source == f)
      ((sort (((x :: a).takeWhile fun c => c.source == f) ++ ((y :: b).takeWhile fun c => c.source == f))).foldl (tryAdd cfg weights) s)

/-- `reduce_move_candidates` of two lists, CLP 428-512.  `_block_weight_deltas` only exists if block weights are tracked, CLP 220-223. -/
def mergeCandidates? (cfg : LPConfig) (weights : Nat → Int) (sort : List Candidate → List Candidate) (a b : List Candidate) :
    Option (List Candidate) :=
  if cfg.track ∨ cfg.k = 0 then some (mergeLoop cfg weights sort (a.length + b.length) a b ([], fun _ => 0)).1 else none

/-- `reduce_move_candidates` over `2 ^ j` processes, CLP 404-423: the first half of the processes receives from the second half. -/
def reduceCandidates? (cfg : LPConfig) (weights : Nat → Nat → Int) (sort : Nat → List Candidate → List Candidate) :
    Nat → (Nat → List Candidate) → Option (List Candidate)
  | 0, l => some (l 0)
  | j + 1, l => (forAll? (2 ^ j) [] fun p => mergeCandidates? cfg (weights p) (sort p) (l p) (l (p + 2 ^ j))).bind
      (reduceCandidates? cfg weights sort j)

/-- One candidate is moved on one process, CLP 361-375. -/
def moveCandidate? (g : DGraph) (s : LPLocal) (c : Candidate) : Option LPLocal :=
  (g.containsGlobal? c.node).bind fun b =>
    if b then
      (g.globalToLocal? c.node).map fun l =>
        { s with
          part := upd s.part l c.target
          next := if l < g.n then upd s.next c.position none else s.next
          gained := if l < g.n then s.gained + c.gain else s.gained
          weights := bump (bump s.weights c.target c.weight) c.source (-c.weight) }
    else some { s with weights := bump (bump s.weights c.target c.weight) c.source (-c.weight) }

/-- `perform_best_moves`, CLP 316-396, on all processes, whose number must be a power of two (CLP 402). -/
def bestMoves? (N : Nat) (cfg : LPConfig) (g : Nat → DGraph) (node fr ub : Nat → Nat → Nat) (c : Nat)
    (sort sort' : Nat → List Candidate → List Candidate) (s : Nat → LPLocal) : Option (Nat → LPLocal) :=
  if 2 ^ Nat.log2 N = N then
    (forAll? N [] fun p => (candidates? (g p) (node p) (fr p c) (ub p c) (s p)).map (sort p)).bind fun l =>
    (reduceCandidates? cfg (fun p => (s p).weights) sort' (Nat.log2 N) l).bind fun r =>
    forAll? N LPLocal.zero fun p => r.foldlM (moveCandidate? (g p)) (s p)
  else none

/-- One iteration of the loop over the nodes, CLP 527-539. -/
def moveLocally? (node : Nat → Nat) (s : LPLocal) (i : Nat) : Option LPLocal :=
  (s.next i).map fun b =>
    if b ≠ s.part (node i) then
      { s with part := upd s.part (node i) b, next := upd s.next i none, gained := s.gained + s.gains i }
    else s

/-- The entries of `_next_partition` for the positions `fr, …, ub - 1` are reset, CLP 246-252 and 543-548. -/
def resetNext (node : Nat → Nat) (fr ub : Nat) (s : LPLocal) : LPLocal :=
  { s with next := fun i => if fr ≤ i ∧ i < ub then some (s.part (node i)) else s.next i }

/-- `perform_local_moves`, CLP 514-565, on all processes. -/
def localMoves? (N : Nat) (cfg : LPConfig) (g : Nat → DGraph) (node fr ub : Nat → Nat → Nat) (c : Nat) (sch : SyncSchedule)
    (s : Nat → LPLocal) : Option (Nat → LPLocal) :=
  if cfg.track then
    (forAll? N LPLocal.zero fun p => (List.range' (fr p c) (ub p c - fr p c)).foldlM (moveLocally? (node p)) (s p)).bind fun t =>
    let total : Nat → Int := fun b => ((List.range N).map fun p => (t p).deltas b).sum
    forAll? N LPLocal.zero fun p => (lpSync? N g node sch t p).map fun part =>
      { resetNext (node p) (fr p c) (ub p c) { t p with part := part } with
        deltas := total
        weights := fun b => (t p).weights b + total b }
  else none

/-! ## Refinement -/

/-- What is arbitrary in one call of `perform_moves`. -/
structure RoundSchedule where
  flip : Nat → Nat → Nat → Bool
  sync : Nat → SyncSchedule
  sort : Nat → List Candidate → List Candidate
  sort' : Nat → List Candidate → List Candidate

/-- `perform_moves`, CLP 299-314. -/
def performMoves? (N : Nat) (cfg : LPConfig) (g : Nat → DGraph) (ord : ColorOrder) (c : Nat) (sch : RoundSchedule) (s : Nat → LPLocal) :
    Option (Nat → LPLocal) :=
  let fr : Nat → Nat → Nat := fun p c => ord.start p c
  let ub : Nat → Nat → Nat := fun p c => ord.start p (c + 1)
  match cfg.strategy with
  | .probabilistic => probabilisticMoves? N cfg g ord.node fr ub c sch.flip sch.sync cfg.attempts 0 s
  | .best => bestMoves? N cfg g ord.node fr ub c sch.sort sch.sort' s
  | .locally => localMoves? N cfg g ord.node fr ub c (sch.sync 0) s

/-- What is arbitrary while one colour is handled. -/
structure PhaseSchedule where
  find : Nat → FindChoice
  round : Nat → RoundSchedule

/-- One colour, CLP 241-255; the result is also the number of moves that were found. -/
def lpPhase? (N : Nat) (cfg : LPConfig) (g : Nat → DGraph) (ord : ColorOrder) (sch : PhaseSchedule) (c : Nat) (s : Nat → LPLocal) :
    Option ((Nat → LPLocal) × Nat) :=
  (forAll? N (LPLocal.zero, 0) fun p =>
    lpFind? cfg (g p) (ord.node p) (ord.start p c) (ord.start p (c + 1)) (sch.find p) (s p)).bind fun t =>
  ((List.range cfg.rounds).foldlM (fun s r => performMoves? N cfg g ord c (sch.round r) s) fun p => (t p).1).map fun s' =>
    (fun p =>
      let s1 := resetNext (ord.node p) (ord.start p c) (ord.start p (c + 1)) (s' p)
      if cfg.track then { s1 with deltas := fun _ => 0 } else s1,
      ((List.range N).map fun p => (t p).2).sum)

/-- One iteration, CLP 234-256. -/
def lpIteration? (N : Nat) (cfg : LPConfig) (g : Nat → DGraph) (ord : ColorOrder) (excluded : Nat → Bool) (sch : Nat → PhaseSchedule)
    (s : Nat → LPLocal) : Option ((Nat → LPLocal) × Nat) :=
  (List.range ord.colors).foldlM (fun x c =>
    if excluded c then some x
    else (lpPhase? N cfg g ord (sch c) c x.1).map fun y => (y.1, x.2 + y.2)) (s, 0)

/-- The iterations, CLP 233-291; `num_found_moves` is a 32-bit integer. -/
def lpIterations? (N : Nat) (cfg : LPConfig) (g : Nat → DGraph) (ord : ColorOrder) (excluded : Nat → Bool) (sch : Nat → Nat → PhaseSchedule) :
    Nat → Nat → (Nat → LPLocal) → Option (Nat → LPLocal)
  | 0, _, s => some s
  | m + 1, t, s => (lpIteration? N cfg g ord excluded (sch t) s).bind fun y =>
      if y.2 % 4294967296 = 0 then some y.1 else lpIterations? N cfg g ord excluded sch m (t + 1) y.1

/-- `refine`, CLP 201-297, of a partition: `part p` are the blocks of the nodes and ghost nodes of process `p`, `weights p` its block
weights. -/
def lpRefine? (N : Nat) (cfg : LPConfig) (g : Nat → DGraph) (ord : ColorOrder) (excluded : Nat → Bool) (sch : Nat → Nat → PhaseSchedule)
    (part : Nat → Nat → Nat) (weights : Nat → Nat → Int) : Option (Nat → LPLocal) :=
  lpIterations? N cfg g ord excluded sch cfg.iterations 0 fun p =>
    ⟨part p, weights p, fun i => some (part p (ord.node p i)), fun _ => 0, fun _ => 0, 0⟩

/-- `initialize` and `refine` of a graph that is not sorted by colours; the colouring is stopped after `fuel` passes. -/
def coloredLP? (N : Nat) (cfg : LPConfig) (g : Nat → DGraph) (S : Nat) (csch : Nat → Nat → ColorSchedule) (fuel : Nat)
    (order : Nat → List Nat) (excluded : Nat → Bool) (sch : Nat → Nat → PhaseSchedule) (part : Nat → Nat → Nat)
    (weights : Nat → Nat → Int) : Option (Nat → LPLocal) :=
  (nodeColoring? N g S csch fuel).bind fun r =>
    if r.2 then (colorOrder? N g r.1 order).bind fun ord => lpRefine? N cfg g ord excluded sch part weights else none

end Verif.Dist
