import Verif.InitialFM.Model

/-!
# Model of the algorithms that compute the first bipartition

Sources in `kaminpar-shm/initial_partitioning`: `initial_flat_bipartitioner.h` (FBH) and `.cc` (FB), `initial_bfs_bipartitioner.cc` (BF),
`initial_ggg_bipartitioner.cc` (GG), `initial_random_bipartitioner.cc` (RB), `seed_node_utils.cc` (SN).

Random numbers are arbitrary oracles.  What an earlier bipartition left in `_partition` is arbitrary.  A marker is the set of marked
nodes (`Verif/Marker`); `first_unmarked_element` of a marker that is only set with tracking is its smallest unmarked node, or some number
that is at least `n` if there is none.  A queue is the list of its elements together with the number of elements pushed since it was
cleared, which must not exceed its capacity (`Verif/Queue`).  A heap is a map from nodes to keys (`Verif/Heap`).  Weights are
integers without overflow.  `none` is undefined behaviour: a push beyond the capacity, the head of an empty queue or
heap, or a counter below zero.
-/

namespace Verif.FlatBip
open Verif.InitialFM (Cfg Queues isEmpty peek?)

/-- `_partition` and `_block_weights`, FBH 79-81. -/
structure Bip where
  part : Nat → Nat
  bw : Nat → Int

/-- `set_block`, FBH 53-58. -/
def setBlock (g : Graph) (s : Bip) (u b : Nat) : Bip where
  part := upd s.part u b
  bw := upd s.bw b (s.bw b + g.w u)

/-- `change_block`, FBH 60-68. -/
def changeBlock (g : Graph) (s : Bip) (u b : Nat) : Bip :=
  let bw := upd s.bw b (s.bw b + g.w u)
  { part := upd s.part u b, bw := upd bw (1 - b) (bw (1 - b) - g.w u) }

/-- `add_to_smaller_block`, FBH 46-51. -/
def addToSmaller (c : Cfg) (s : Bip) (u : Nat) : Bip :=
  setBlock c.g s u (if s.bw 0 - c.perfect 0 < s.bw 1 - c.perfect 1 then 0 else 1)

/-- The smallest node that is not marked, or `n`. -/
def firstUnmarked (n : Nat) (marked : Nat → Bool) : Nat := ((List.range n).find? fun u => !marked u).getD n

/-! ## Random -/

/-- One node, RB 20-27; `coin` is the random block. -/
def randomStep (c : Cfg) (coin : Nat → Bool) (s : Bip) (u : Nat) : Bip :=
  let b := if coin u then 1 else 0
  if s.bw b + c.g.w u < c.perfect b then setBlock c.g s u b else addToSmaller c s u

/-- `fill_bipartition`, RB 18-29. -/
def random (c : Cfg) (coin : Nat → Bool) (s : Bip) : Bip := (List.range c.g.n).foldl (randomStep c coin) s

/-! ## Greedy graph growing -/

/-- The bipartition, `_marker` and `_queue`. -/
structure GGG where
  s : Bip
  marked : Nat → Bool
  queue : Nat → Option Int

/-- `compute_gain`, GG 95-108. -/
def gggGain (g : Graph) (part : Nat → Nat) (u : Nat) : Int :=
  (g.adj u).foldl (fun x e => if part u = part e.1 then x + e.2 else x - e.2) 0

/-- `push`. -/
def gggPush? (q : Nat → Option Int) (u : Nat) (key : Int) : Option (Nat → Option Int) :=
  match q u with
  | some _ => none
  | none => some (upd q u (some key))

/-- One neighbour, GG 73-90. -/
def gggVisit? (g : Graph) (u : Nat) (s : GGG) (e : Nat × Int) : Option GGG :=
  if s.s.part u = 1 then some s
  else if s.marked e.1 then (s.queue e.1).map fun key => { s with queue := upd s.queue e.1 (some (key - 2 * e.2)) }
  else do
    let queue ← gggPush? s.queue e.1 (gggGain g s.s.part e.1)
    some { s with queue, marked := upd s.marked e.1 true }

/-- The inner loop, GG 62-91, for at most `fuel` iterations. -/
def gggGrow? (c : Cfg) (tie : Nat) : Nat → GGG → Option GGG
  | 0, _ => none
  | fuel + 1, s =>
    if isEmpty c s.queue then some s
    else do
      let (u, _) ← peek? c s.queue tie
      let s := { s with queue := upd s.queue u none, s := changeBlock c.g s.s u 1 }
      if c.perfect 1 ≤ s.s.bw 1 then some s
      else do
        let s ← (c.g.adj u).foldlM (gggVisit? c.g u) s
        gggGrow? c tie fuel s

/-- The start node, GG 43-54: up to five random nodes `draw` are tried. -/
def gggStart (n : Nat) (marked : Nat → Bool) (draw : Nat → Nat) : Nat :=
  (((List.range 5).map draw).find? fun u => !marked u).getD (firstUnmarked n marked)

/-- The outer loop, GG 40-92, for at most `fuel` iterations; `t` is the number of the iteration. -/
def gggLoop? (c : Cfg) (draw : Nat → Nat → Nat) (tie : Nat → Nat) : Nat → Nat → GGG → Option Bip
  | 0, _, _ => none
  | fuel + 1, t, s =>
    let u := gggStart c.g.n s.marked (draw t)
    if c.g.n ≤ u then some s.s
    else do
      let queue ← gggPush? s.queue u (gggGain c.g s.s.part u)
      let s ← gggGrow? c (tie t) (c.g.n + 1) { s with queue, marked := upd s.marked u true }
      if s.s.bw 1 < c.perfect 1 then gggLoop? c draw tie fuel (t + 1) s else some s.s

/-- `total_node_weight`. -/
def totalWeight (g : Graph) : Int := (List.range g.n).foldl (fun x u => x + g.w u) 0

/-- `fill_bipartition`, GG 30-93. -/
def ggg? (c : Cfg) (draw : Nat → Nat → Nat) (tie : Nat → Nat) (s : Bip) : Option Bip :=
  gggLoop? c draw tie (c.g.n + 1) 0
    { s := { part := fun u => if u < c.g.n then 0 else s.part u, bw := upd s.bw 0 (totalWeight c.g) }
      marked := fun _ => false
      queue := fun _ => none }

/-! ## Seed nodes -/

/-- The local variables of `find_furthest_away_node`, SN 22-31. -/
structure Seed where
  queue : List Nat
  pushed : Nat
  marked : Nat → Bool
  dist : Nat
  last : Nat
  remaining : Nat
  next : Nat

/-- One neighbour, SN 38-46. -/
def seedVisit? (cap : Nat) (s : Seed) (e : Nat × Int) : Option Seed :=
  if s.marked e.1 then some s
  else if s.pushed < cap then
    some { s with queue := s.queue ++ [e.1], pushed := s.pushed + 1, marked := upd s.marked e.1 true, next := s.next + 1 }
  else none

/-- The end of an iteration, SN 48-55. -/
def seedLevel? (s : Seed) : Option Seed :=
  if s.remaining = 0 then none
  else if s.remaining - 1 = 0 then some { s with dist := s.dist + 1, remaining := s.next, next := 0 }
  else some { s with remaining := s.remaining - 1 }

/-- The loop, SN 33-56, for at most `fuel` iterations. -/
def seedLoop? (g : Graph) (cap : Nat) : Nat → Seed → Option Seed
  | 0, s => if s.queue = [] then some s else none
  | fuel + 1, s => match s.queue with
    | [] => some s
    | u :: queue => do
      let s ← (g.adj u).foldlM (seedVisit? cap) { s with queue, last := u }
      let s ← seedLevel? s
      seedLoop? g cap fuel s

/-- `find_furthest_away_node`, SN 19-69; `inf` is `numeric_limits<NodeID>::max()`. -/
def furthest? (g : Graph) (cap inf : Nat) (u : Nat) : Option (Nat × Nat) := do
  let s ← if 0 < cap then
      seedLoop? g cap g.n
        { queue := [u], pushed := 1, marked := upd (fun _ => false) u true, dist := 0, last := u, remaining := 1, next := 0 }
    else none
  if s.dist = 0 then none
  else if firstUnmarked g.n s.marked < g.n then some (firstUnmarked g.n s.marked, inf)
  else some (s.last, s.dist - 1)

/-- One iteration of `find_far_away_nodes`, SN 90-98; the random node and the random bit are given. -/
def farStep? (g : Graph) (cap inf : Nat) (s : Nat × (Nat × Nat)) (x : Nat × Bool) : Option (Nat × (Nat × Nat)) := do
  let (v, d) ← furthest? g cap inf x.1
  if s.1 < d ∨ (d = s.1 ∧ x.2) then some (d, (x.1, v)) else some s

/-- `find_far_away_nodes`, SN 79-101; one random node and bit for each iteration. -/
def farAway? (g : Graph) (cap inf : Nat) (xs : List (Nat × Bool)) : Option (Nat × Nat) := do
  let s ← xs.foldlM (farStep? g cap inf) (0, (0, 0))
  some s.2

/-! ## Breadth first search -/

/-- The strategies, BF 22-67. -/
inductive Select where
  | alternating
  | lighter
  | sequential
  | longerQueue
  | shorterQueue

/-- The bipartition, `_queues` with the numbers of elements pushed, the three markers of `_marker`, and `active`. -/
structure BFS where
  s : Bip
  queue : Nat → List Nat
  pushed : Nat → Nat
  marked : Nat → Nat → Bool
  assigned : Nat → Bool
  active : Nat

/-- `select_next_block`, BF 22-67. -/
def Select.next (sel : Select) (c : Cfg) (s : BFS) : Nat := match sel with
  | .alternating => 1 - s.active
  | .lighter => if s.s.bw 0 < s.s.bw 1 then 0 else 1
  | .sequential => if s.s.bw 0 < c.perfect 0 then 0 else 1
  | .longerQueue => if (s.queue 0).length < (s.queue 1).length then 1 else 0
  | .shorterQueue => if (s.queue 0).length < (s.queue 1).length then 0 else 1

/-- `push_tail` and marking, BF 105-108, 125-126 and 160-161. -/
def bfsPush? (cap : Nat) (s : BFS) (b u : Nat) : Option BFS :=
  if s.pushed b < cap then
    some { s with queue := upd s.queue b (s.queue b ++ [u]), pushed := upd s.pushed b (s.pushed b + 1)
                  marked := upd s.marked b (upd (s.marked b) u true) }
  else none

/-- One neighbour of the assigned node, BF 155-162. -/
def bfsVisit? (cap : Nat) (s : BFS) (e : Nat × Int) : Option BFS :=
  if s.assigned e.1 ∨ s.marked s.active e.1 then some s else bfsPush? cap s s.active e.1

/-- The node `u` was taken from the queue of the active block, BF 134-163. -/
def bfsAssign? (c : Cfg) (cap : Nat) (s : BFS) (u : Nat) : Option BFS :=
  if s.assigned u then some s
  else
    let active := if s.s.bw s.active + c.g.w u ≤ c.maxW s.active then s.active else 1 - s.active
    (c.g.adj u).foldlM (bfsVisit? cap)
      { s with active, s := setBlock c.g s.s u active, assigned := upd s.assigned u true }

/-- The head of the queue of the active block is taken, BF 129-130 and 134-166. -/
def bfsTake? (c : Cfg) (sel : Select) (cap : Nat) (s : BFS) : Option BFS :=
  match s.queue s.active with
  | [] => none
  | u :: q => do
    let s ← bfsAssign? c cap { s with queue := upd s.queue s.active q } u
    some { s with active := sel.next c s }

/-- One iteration of the loop, BF 115-166. -/
def bfsStep? (c : Cfg) (sel : Select) (cap : Nat) (s : BFS) : Option BFS :=
  if s.queue s.active = [] then
    let u := firstUnmarked c.g.n s.assigned
    if s.marked s.active u then some { s with active := 1 - s.active }
    else (bfsPush? cap s s.active u).bind (bfsTake? c sel cap)
  else bfsTake? c sel cap s

/-- The loop, BF 114-167, for at most `fuel` iterations. -/
def bfsLoop? (c : Cfg) (sel : Select) (cap : Nat) : Nat → BFS → Option BFS
  | 0, s => if firstUnmarked c.g.n s.assigned < c.g.n then none else some s
  | fuel + 1, s =>
    if firstUnmarked c.g.n s.assigned < c.g.n then (bfsStep? c sel cap s).bind (bfsLoop? c sel cap fuel) else some s

/-- `fill_bipartition`, BF 96-168. -/
def bfs? (c : Cfg) (sel : Select) (cap inf : Nat) (seeds : List (Nat × Bool)) (s : Bip) : Option Bip := do
  let (a, b) ← farAway? c.g cap inf seeds
  let s ← bfsPush? cap { s, queue := fun _ => [], pushed := fun _ => 0, marked := fun _ _ => false, assigned := fun _ => false,
                         active := 0 } 0 a
  let s ← bfsPush? cap s 1 b
  let s ← bfsLoop? c sel cap (2 * c.g.n) s
  some s.s

/-! ## The interface -/

/-- The algorithms. -/
inductive Kind where
  | bfs (sel : Select)
  | ggg
  | random

/-- The random choices of one run, and which of several nodes with the same key a heap returns. -/
structure Oracle where
  seeds : List (Nat × Bool)
  draw : Nat → Nat → Nat
  tie : Nat → Nat
  coin : Nat → Bool

/-- `fill_bipartition`. -/
def fill? (c : Cfg) (cap inf : Nat) (o : Oracle) (s : Bip) : Kind → Option Bip
  | .bfs sel => bfs? c sel cap inf o.seeds s
  | .ggg => ggg? c o.draw o.tie s
  | .random => some (random c o.coin s)

/-- `bipartition`, FB 27-58; `old` is the previous content of the memory. -/
def bipartition? (c : Cfg) (cap inf : Nat) (kind : Kind) (o : Oracle) (old : Bip) : Option Bip :=
  let s : Bip := { old with bw := upd (upd old.bw 0 0) 1 0 }
  if c.g.n = 0 then some s else fill? c cap inf o s kind

end Verif.FlatBip
