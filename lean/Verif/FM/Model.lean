import Verif.Gains.Model

/-!
# Model of the localized k-way FM search

Sources: `kaminpar-shm/refinement/fm/fm_refiner.cc` (FM), `fm/border_nodes.h` (BN) and `fm/node_tracker.h` (NT).

The gain cache is the dense one with all blocks (`Gains.Dense` and its delta cache `Gains.Local`), the delta
partition is the one of `Verif/Delta`.  Simplifications:
* A priority queue of nodes is the map from its nodes to their keys.  Which node of which queue is next (the
  heaps, `_block_pq` and `update_block_pq`, FM 408-420) and when the search stops (`_stopping_policy`,
  `_shared.abort`) is decided by an arbitrary strategy, so all tie-breaking rules and stopping rules are covered.
* Statistics, timers, recorded moves (`_applied_moves`) and debug output are not modelled.
* Weights are integers without overflow.
`none` is an operation whose behaviour is undefined: a search in a hash map that does not end, a push of a node
that is already in the queue, or a change of the key of a node that is not in the queue.
-/

namespace Verif.FM
open Verif.DynMaps Verif.Delta Verif.Gains

/-- `UNLOCKED`, NT 18. -/
def unlocked : Int := 0
/-- `MOVED_LOCALLY`, NT 19. -/
def movedLocally : Int := -1
/-- `MOVED_GLOBALLY`, NT 20. -/
def movedGlobally : Int := -2

/-- The graph and the settings: `k`, `max_block_weight`, `numeric_limits<EdgeWeight>::min()`,
`kIteratesExactGains`, and the fields `num_seed_nodes`, `unlock_seed_nodes`, `unlock_locally_moved_nodes` of the
context. -/
structure Cfg where
  g : Graph
  k : Nat
  maxW : Nat → Int
  minGain : Int
  exact : Bool
  numSeeds : Nat
  unlockSeeds : Bool
  unlockMoved : Bool

/-- What the workers share: the partition with its block weights, the gain cache, the node tracker and the
target blocks, FM 48-79. -/
structure State where
  sh : Shared
  cache : Dense
  owner : Nat → Int
  target : Nat → Nat

/-- A worker, FM 422-443, with the two gains of `run_batch`, FM 128-129. -/
structure Worker where
  id : Int
  loc : Local
  pq : Nat → Nat → Option Int
  seeds : List Nat
  touched : List Nat
  cur : Int
  best : Int

/-- The loop of `find_best_gain`, FM 371-391: best gain, best block and its weight gap.  `l` are the pairs
reported by `gains`, `bw` the block weights. -/
def pickBest (c : Cfg) (bw : Nat → Int) (w : Int) (start : Int × Nat × Int) (l : List (Nat × Int)) : Int × Nat × Int :=
  l.foldl (fun (r : Int × Nat × Int) e =>
    let gap := c.maxW e.1 - (bw e.1 + w)
    if gap < min r.2.2 0 then r
    else if e.2 > r.1 ∨ (e.2 = r.1 ∧ gap > r.2.2) then (e.2, e.1, gap) else r) start

/-- `find_best_gain` for the shared partition and gain cache, FM 365-406. -/
def findBest (c : Cfg) (s : State) (u : Nat) : Nat × Int :=
  let b := s.sh.part u
  let r := pickBest c s.sh.bw (c.g.w u) (c.minGain, b, c.maxW b - s.sh.bw b) (s.cache.gains true c.exact u b)
  if r.2.1 = b then (r.2.1, c.minGain)
  else if c.exact then (r.2.1, r.1) else (r.2.1, s.cache.gain u b r.2.1)

/-- The last step of `find_best_gain`, FM 393-405, for the delta gain cache. -/
def finalGain? (c : Cfg) (s : State) (t : Table) (u b : Nat) (r : Int × Nat × Int) : Option (Nat × Int) :=
  if r.2.1 = b then some (r.2.1, c.minGain)
  else if c.exact then some (r.2.1, r.1)
  else (deltaGain? s.cache t u b r.2.1).map fun x => (r.2.1, x)

/-- `find_best_gain` for the delta partition and its gain cache, FM 365-406. -/
def findBestDelta? (c : Cfg) (s : State) (d : Local) (u : Nat) : Option (Nat × Int) := do
  let b ← d.delta.block? s.sh.part u
  let bw := d.delta.blockWeight s.sh.bw
  let l ← deltaGains? c.exact s.cache d.tab u b
  finalGain? c s d.tab u b (pickBest c bw (c.g.w u) (c.minGain, b, c.maxW b - bw b) l)

/-- `push` of a priority queue. -/
def push? (pq : Nat → Nat → Option Int) (b u : Nat) (key : Int) : Option (Nat → Nat → Option Int) :=
  match pq b u with
  | some _ => none
  | none => some (upd pq b (upd (pq b) u (some key)))

/-- `change_priority` of a priority queue. -/
def change? (pq : Nat → Nat → Option Int) (b u : Nat) (key : Int) : Option (Nat → Nat → Option Int) :=
  match pq b u with
  | none => none
  | some _ => some (upd pq b (upd (pq b) u (some key)))

/-- `insert_into_node_pq` for a seed node, FM 300-309. -/
def insertSeed? (c : Cfg) (s : State) (w : Worker) (u : Nat) : Option (State × Worker) := do
  let b := s.sh.part u
  let (to_, gain) := findBest c s u
  let pq ← push? w.pq b u gain
  some ({ s with target := upd s.target u to_ }, { w with pq })

/-- `insert_into_node_pq` for a neighbour of a moved node, FM 300-309. -/
def insertDelta? (c : Cfg) (s : State) (w : Worker) (u : Nat) : Option (State × Worker) := do
  let b ← w.loc.delta.block? s.sh.part u
  let (to_, gain) ← findBestDelta? c s w.loc u
  let pq ← push? w.pq b u gain
  some ({ s with target := upd s.target u to_ }, { w with pq })

/-- Recompute the best target of a node in the queue of block `b`, FM 329-331 and 335-337. -/
def retarget? (c : Cfg) (s : State) (w : Worker) (u b : Nat) : Option (State × Worker) := do
  let (to_, gain) ← findBestDelta? c s w.loc u
  let pq ← change? w.pq b u gain
  some ({ s with target := upd s.target u to_ }, { w with pq })

/-- Only change the key of a node, e.g. FM 325-327. -/
def rekey? (s : State) (w : Worker) (u b t : Nat) : Option (State × Worker) := do
  let gain ← deltaGain? s.cache w.loc.tab u b t
  let pq ← change? w.pq b u gain
  some (s, { w with pq })

/-- The last case of `update_after_move`, FM 347-358. -/
def better? (c : Cfg) (s : State) (w : Worker) (u b t movedTo : Nat) : Option (State × Worker) := do
  let g1 ← deltaGain? s.cache w.loc.tab u b t
  let g2 ← deltaGain? s.cache w.loc.tab u b movedTo
  if g2 > g1 ∧ w.loc.delta.blockWeight s.sh.bw movedTo + c.g.w u ≤ c.maxW movedTo then do
    let pq ← change? w.pq b u g2
    some ({ s with target := upd s.target u movedTo }, { w with pq })
  else do
    let pq ← change? w.pq b u g1
    some (s, { w with pq })

/-- `update_after_move`, FM 311-360. -/
def updateAfterMove? (c : Cfg) (s : State) (w : Worker) (u movedFrom movedTo : Nat) : Option (State × Worker) :=
  let b := s.sh.part u
  let t := s.target u
  if movedTo = t then
    if w.loc.delta.blockWeight s.sh.bw t + c.g.w u ≤ c.maxW t then rekey? s w u b t else retarget? c s w u b
  else if movedFrom = t then retarget? c s w u b
  else if movedTo = b then rekey? s w u b t
  else better? c s w u b t movedTo

/-- One neighbour of a moved node, FM 221-235 (`lock` succeeds, NT 24-29). -/
def visit? (c : Cfg) (movedFrom movedTo : Nat) (st : State × Worker) (e : Nat × Int) : Option (State × Worker) :=
  let o := st.1.owner e.1
  if o = st.2.id then updateAfterMove? c st.1 st.2 e.1 movedFrom movedTo
  else if o = unlocked then
    (insertDelta? c { st.1 with owner := upd st.1.owner e.1 st.2.id } st.2 e.1).map fun r =>
      (r.1, { r.2 with touched := r.2.touched ++ [e.1] })
  else some st

/-- One move of the delta partition that is applied to the shared partition, FM 179-198. -/
def applyOne (g : Graph) (s : State) (e : Nat × Nat) : State :=
  { s with
    cache := s.cache.move g ⟨e.1, s.sh.part e.1, e.2⟩
    owner := upd s.owner e.1 movedGlobally
    sh := s.sh.setBlock g.w e }

/-- A new local minimum: the moves are applied to the shared partition, FM 171-213. -/
def commit (c : Cfg) (s : State) (w : Worker) (u b t : Nat) : State × Worker :=
  let s := { s with
    sh := s.sh.setBlock c.g.w (u, t)
    cache := s.cache.move c.g ⟨u, b, t⟩
    owner := upd s.owner u movedGlobally }
  let s := w.loc.delta.forEach.foldl (applyOne c.g) s
  (s, { w with loc := ⟨w.loc.delta.clear, Flat.clear w.loc.tab⟩, best := w.cur })

/-- A move of the delta partition, FM 214-219. -/
def moveLocally? (c : Cfg) (s : State) (w : Worker) (u b t : Nat) : Option (State × Worker) := do
  let d ← w.loc.delta.setBlock? c.g.w s.sh.part u t
  let tab ← deltaMove? c.g c.k w.loc.tab ⟨u, b, t⟩
  some (s, { w with loc := ⟨d, tab⟩ })

/-- Either of the two, FM 173-219. -/
def perform? (c : Cfg) (s : State) (w : Worker) (u b t : Nat) : Option (State × Worker) :=
  if w.cur > w.best then some (commit c s w u b t) else moveLocally? c s w u b t

/-- The search moves node `u` from `b` to `t` with gain `gain`, FM 166-236. -/
def accept? (c : Cfg) (s : State) (w : Worker) (u b t : Nat) (gain : Int) : Option (State × Worker) := do
  let r ← perform? c s { w with cur := w.cur + gain } u b t
  (c.g.adj u).foldlM (visit? c b t) r

/-- What happens with the node at the top of the queue, once its best move is known, FM 144-237. -/
def process? (c : Cfg) (s : State) (w : Worker) (b u t : Nat) (gain key : Int) : Option (State × Worker) :=
  if gain < key then do
    let pq ← change? w.pq b u gain
    some ({ s with target := upd s.target u t }, { w with pq })
  else
    let w := { w with pq := upd w.pq b (upd (w.pq b) u none) }
    let s := { s with owner := upd s.owner u movedLocally }
    if t = b then some (s, w)
    else if w.loc.delta.blockWeight s.sh.bw t + c.g.w u ≤ c.maxW t then accept? c s w u b t gain
    else some (s, w)

/-- One iteration of the main loop, FM 135-237, for node `u` at the top of the queue of block `b`. -/
def iterate? (c : Cfg) (st : State × Worker) (b u : Nat) (key : Int) : Option (State × Worker) := do
  let (t, gain) ← findBestDelta? c st.1 st.2.loc u
  process? c st.1 st.2 b u t gain key

/-- What decides which queue and node is next, or stops the search. -/
abbrev Strategy := State → Worker → Option (Nat × Nat)

/-- The main loop, FM 133-237, with at most `fuel` iterations. -/
def search? (c : Cfg) (strat : Strategy) : Nat → State × Worker → Option (State × Worker)
  | 0, st => some st
  | fuel + 1, st =>
    match strat st.1 st.2 with
    | none => some st
    | some (b, u) =>
      match st.2.pq b u with
      | none => some st
      | some key => do
        let st ← iterate? c st b u key
        search? c strat fuel st

/-- `unlock_touched_node`, FM 244-255. -/
def unlockTouched (c : Cfg) (id : Int) (owner : Nat → Int) (u : Nat) : Nat → Int :=
  if owner u = movedLocally then
    if c.unlockMoved then upd owner u unlocked else upd owner u movedGlobally
  else if owner u = id then upd owner u unlocked
  else owner

/-- The treatment of a seed node at the end, FM 258-264. -/
def unlockSeed (c : Cfg) (id : Int) (owner : Nat → Int) (u : Nat) : Nat → Int :=
  if !c.unlockSeeds then upd owner u movedGlobally else unlockTouched c id owner u

/-- The end of `run_batch`, FM 239-281. -/
def finish (c : Cfg) (s : State) (w : Worker) : State × Worker :=
  let owner := w.seeds.foldl (unlockSeed c w.id) s.owner
  let owner := w.touched.foldl (unlockTouched c w.id) owner
  ({ s with owner },
   { w with pq := fun _ _ => none, touched := [], loc := ⟨w.loc.delta.clear, Flat.clear w.loc.tab⟩ })

/-- One node of a polled range, BN 56-62, with the lambda of `run_batch`, FM 120-125. -/
def pollNode? (c : Cfg) (st : State × Worker × Nat) (u : Nat) : Option (State × Worker × Nat) :=
  if st.1.owner u = unlocked then do
    let r ← insertSeed? c { st.1 with owner := upd st.1.owner u st.2.1.id } st.2.1 u
    some (r.1, { r.2 with seeds := r.2.seeds ++ [u] }, st.2.2 + 1)
  else some st

/-- `poll`, BN 48-66, by a single thread, returning the new `_next_border_node`; `none` also if `fuel` rounds do not
suffice. -/
def poll? (c : Cfg) (border : List Nat) : Nat → Nat → State × Worker × Nat → Option (Nat × State × Worker)
  | 0, _, _ => none
  | fuel + 1, next, st =>
    if st.2.2 < c.numSeeds ∧ next < border.length then do
      let remaining := c.numSeeds - st.2.2
      let st ← ((border.drop next).take remaining).foldlM (pollNode? c) st
      poll? c border fuel (next + remaining) st
    else some (next, st.1, st.2.1)

/-- `run_batch`, FM 109-281: the new position in the border nodes, the new states and the result. -/
def runBatch? (c : Cfg) (strat : Strategy) (steps : Nat) (border : List Nat) (next : Nat) (s : State) (w : Worker) :
    Option (Nat × State × Worker × Int) := do
  let (next, s, w) ← poll? c border (border.length + 1) next (s, { w with seeds := [], cur := 0, best := 0 }, 0)
  let (s, w) ← search? c strat steps (s, w)
  let r := finish c s w
  some (next, r.1, r.2, r.2.best)

/-- The loop of a worker over its batches, FM 527-543, if it is the only one: the final states and the sum of the
gains of the batches.  Batch number `i` uses the strategy `strat i`. -/
def batches? (c : Cfg) (strat : Nat → Strategy) (steps : Nat) (border : List Nat) :
    Nat → Nat → State → Worker → Int → Option (State × Worker × Int)
  | 0, next, s, w, total => if next < border.length then none else some (s, w, total)
  | fuel + 1, next, s, w, total =>
    if next < border.length then do
      let (next, s, w, gain) ← runBatch? c (strat fuel) steps border next s w
      batches? c strat steps border fuel next s w (total + gain)
    else some (s, w, total)

/-- `BorderNodes::init`, BN 27-36, where the nodes are visited in the order `order`. -/
def initBorder (s : State) (order : List Nat) : State × List Nat :=
  let border := order.filter fun u => s.cache.isBorder u (s.sh.part u)
  ({ s with owner := order.foldl (fun o u => upd o u unlocked) s.owner }, border)

/-- What one iteration of the refiner depends on besides the partition: the order in which the nodes are visited,
the result of `shuffle`, the strategies of the batches, and whether the refiner stops afterwards (the abortion
threshold, FM 556-567). -/
structure Iteration where
  order : List Nat
  shuffle : List Nat → List Nat
  strat : Nat → Strategy
  stop : Bool

/-- One iteration of the refiner with one worker, FM 498-573. -/
def iteration? (c : Cfg) (steps : Nat) (it : Iteration) (s : State) (w : Worker) : Option (State × Worker × Int) :=
  let r := initBorder s it.order
  let border := it.shuffle r.2
  batches? c it.strat steps border border.length 0 r.1 w 0

/-- The loop over the iterations, FM 498-573. -/
def iterations? (c : Cfg) (steps : Nat) : List Iteration → State → Worker → Int → Option (State × Worker × Int)
  | [], s, w, total => some (s, w, total)
  | it :: its, s, w, total => do
    let (s, w, gain) ← iteration? c steps it s w
    if it.stop then some (s, w, total + gain) else iterations? c steps its s w (total + gain)

/-- A new worker, FM 85-107. -/
def Worker.new (id : Int) : Worker :=
  { id, loc := Local.new, pq := fun _ _ => none, seeds := [], touched := [], cur := 0, best := 0 }

/-- `FMRefinerCore::refine` with one thread, FM 463-580; `old`, `owner` and `target` are the contents of the shared
data structures before the call, `order` is the order of the parallel initialization of the gain cache.  The
result is the new partition and `total_expected_gain`. -/
def refine? (c : Cfg) (steps : Nat) (its : List Iteration) (old : Dense) (owner : Nat → Int) (target : Nat → Nat)
    (order : List Nat) (sh : Shared) : Option (Shared × Int) := do
  let cache := Dense.init c.g sh.part c.k old order
  let r ← iterations? c steps its { sh, cache, owner, target } (Worker.new 1) 0
  some (r.1.sh, r.2.2)

/-! ## Several workers -/

/-- The position in the border nodes, the shared state and the workers. -/
abbrev Team := Nat × State × (Nat → Worker)

/-- A batch run by a worker. -/
structure Task where
  worker : Nat
  strat : Strategy
  steps : Nat

/-- Workers run batches one after the other: the new states and the sum of the gains. -/
def runSequence? (c : Cfg) (border : List Nat) : List Task → Team → Int → Option (Team × Int)
  | [], st, total => some (st, total)
  | t :: l, (next, s, w), total => do
    let (next, s, w1, gain) ← runBatch? c t.strat t.steps border next s (w t.worker)
    runSequence? c border l (next, s, upd w t.worker w1) (total + gain)

/-- A part of a batch that a worker executes without interruption.  (In the code workers interleave at every access
to shared memory; the schedules of these larger steps are among them.) -/
inductive Action
  | poll
  | step (strat : Strategy)
  | finish

/-- One part of a batch, FM 109-281: the beginning, one iteration of the main loop, or the end. -/
def act? (c : Cfg) (border : List Nat) (st : Team) (i : Nat) : Action → Option Team
  | .poll => do
    let (next, s, w) ← poll? c border (border.length + 1) st.1 (st.2.1, { st.2.2 i with seeds := [], cur := 0, best := 0 }, 0)
    some (next, s, upd st.2.2 i w)
  | .step strat => do
    let (s, w) ← search? c strat 1 (st.2.1, st.2.2 i)
    some (st.1, s, upd st.2.2 i w)
  | .finish =>
    let r := finish c st.2.1 (st.2.2 i)
    some (st.1, r.1, upd st.2.2 i r.2)

/-- A schedule: which worker executes which part of its batch. -/
def runSchedule? (c : Cfg) (border : List Nat) : List (Nat × Action) → Team → Option Team
  | [], st => some st
  | (i, a) :: l, st => do
    let st ← act? c border st i a
    runSchedule? c border l st

end Verif.FM
