import Verif.FM.Model

/-!
# Model of the concurrent use of the node tracker and the border nodes

Sources: `kaminpar-shm/refinement/fm/fm_refiner.cc` (FM), `fm/border_nodes.h` (BN) and `fm/node_tracker.h` (NT).

Any number of workers run batches at the same time during one iteration of the refiner.  Every access to the tracker
and to `_next_border_node` is a step of its own, and the steps of the workers interleave arbitrarily.  What a worker
does between these accesses is arbitrary as far as it does not matter here: it may pop any node of its queues, apply
any of the nodes it has popped and visit any node as neighbour at any time, so the model has more behaviours than the
code.  Accesses to one tracker entry are sequentially consistent (they are atomic and of one location).
-/

namespace Verif.FM.Tracker
open Verif.FM

/-- Number of workers, `num_seed_nodes`, bits of a `NodeID`, the border nodes in the order after `shuffle`, and the two
settings. -/
structure Params where
  workers : Nat
  count : Nat
  bits : Nat
  border : List Nat
  unlockSeeds : Bool
  unlockMoved : Bool

/-- Where a worker is. -/
inductive Pc
  /-- between two batches -/
  | out
  /-- before the test BN 51 -/
  | poll (polled : Nat)
  /-- before `fetch_add`, BN 53 -/
  | take (polled : Nat)
  /-- before the test `current < to` and reading the owner, BN 56-58 -/
  | scan (polled current end_ : Nat)
  /-- before `lock`, BN 58 -/
  | try_ (polled current end_ : Nat)
  /-- in the main loop, FM 133-237 -/
  | search
  /-- before `lock` for the neighbour `v`, FM 228 -/
  | lock (v : Nat)
  /-- moves that are still to be marked as applied, FM 176 and 195 -/
  | apply (l : List Nat)
  /-- nodes that are still to be unlocked, FM 257-272; the flag marks seed nodes -/
  | free (l : List (Bool × Nat))
  /-- the owner of node `u` was read as `o`, FM 245; the result is not yet stored -/
  | freed (u : Nat) (o : Int) (l : List (Bool × Nat))

/-- A worker: its position, the nodes in its queues, the nodes it popped in this batch, `_seed_nodes` and
`_touched_nodes`. -/
structure Wk where
  pc : Pc
  held : List Nat
  popped : List Nat
  seeds : List Nat
  touched : List Nat

/-- `_state` of the tracker, `_next_border_node`, the workers, and two records that the code does not keep: the
successful calls of `lock` and the nodes that were handed out as seed nodes. -/
structure St where
  tr : Nat → Int
  next : Nat
  wk : Nat → Wk
  locks : List (Nat × Nat)
  handed : List Nat

/-- Worker number `t` has the ID `t + 1`, FM 480-485. -/
def idOf (t : Nat) : Int := t + 1

/-- Worker `t` gets the new local state `w`. -/
def St.set (s : St) (t : Nat) (w : Wk) : St := { s with wk := upd s.wk t w }

/-- What worker `t` writes at the end for a node whose owner it read as `o`, FM 244-255 (`none`: nothing). -/
def release (p : Params) (t : Nat) (o : Int) : Option Int :=
  if o = movedLocally then
    if p.unlockMoved then some unlocked else some movedGlobally
  else if o = idOf t then some unlocked
  else none

/-- The steps of worker `t`. -/
inductive Step (p : Params) : St → St → Prop
  /-- `run_batch` begins, FM 109-113. -/
  | start (s : St) (t : Nat) (ht : t < p.workers) (h : (s.wk t).pc = .out) :
    Step p s (s.set t { s.wk t with pc := .poll 0, seeds := [] })
  /-- The test BN 51 succeeds. -/
  | more (s : St) (t q : Nat) (ht : t < p.workers) (h : (s.wk t).pc = .poll q) (h1 : q < p.count)
      (h2 : s.next < p.border.length) :
    Step p s (s.set t { s.wk t with pc := .take q })
  /-- The test BN 51 fails. -/
  | enough (s : St) (t q : Nat) (ht : t < p.workers) (h : (s.wk t).pc = .poll q)
      (h1 : ¬ (q < p.count ∧ s.next < p.border.length)) :
    Step p s (s.set t { s.wk t with pc := .search })
  /-- `fetch_add`, BN 52-54. -/
  | take (s : St) (t q : Nat) (ht : t < p.workers) (h : (s.wk t).pc = .take q) :
    Step p s
      { s.set t { s.wk t with pc := .scan q s.next (min ((s.next + (p.count - q)) % 2 ^ p.bits) p.border.length) } with
        next := (s.next + (p.count - q)) % 2 ^ p.bits }
  /-- The range is used up. -/
  | scanned (s : St) (t q i e : Nat) (ht : t < p.workers) (h : (s.wk t).pc = .scan q i e) (h1 : ¬ i < e) :
    Step p s (s.set t { s.wk t with pc := .poll q })
  /-- The node is not free, BN 58. -/
  | skip (s : St) (t q i e : Nat) (ht : t < p.workers) (h : (s.wk t).pc = .scan q i e) (h1 : i < e)
      (h2 : s.tr (p.border.getD i 0) ≠ unlocked) :
    Step p s (s.set t { s.wk t with pc := .scan q (i + 1) e })
  /-- The node is free, BN 58. -/
  | look (s : St) (t q i e : Nat) (ht : t < p.workers) (h : (s.wk t).pc = .scan q i e) (h1 : i < e)
      (h2 : s.tr (p.border.getD i 0) = unlocked) :
    Step p s (s.set t { s.wk t with pc := .try_ q i e })
  /-- `lock` succeeds, NT 24-29; the lambda, FM 120-125. -/
  | seed (s : St) (t q i e : Nat) (ht : t < p.workers) (h : (s.wk t).pc = .try_ q i e)
      (h2 : s.tr (p.border.getD i 0) = unlocked) :
    Step p s
      { s.set t { s.wk t with pc := .scan (q + 1) (i + 1) e, held := (s.wk t).held ++ [p.border.getD i 0]
                              seeds := (s.wk t).seeds ++ [p.border.getD i 0] } with
        tr := upd s.tr (p.border.getD i 0) (idOf t)
        locks := s.locks ++ [(t, p.border.getD i 0)]
        handed := s.handed ++ [p.border.getD i 0] }
  /-- `lock` fails. -/
  | noSeed (s : St) (t q i e : Nat) (ht : t < p.workers) (h : (s.wk t).pc = .try_ q i e)
      (h2 : s.tr (p.border.getD i 0) ≠ unlocked) :
    Step p s (s.set t { s.wk t with pc := .scan q (i + 1) e })
  /-- A node leaves its queue, FM 157-158. -/
  | pop (s : St) (t u : Nat) (ht : t < p.workers) (h : (s.wk t).pc = .search) (h1 : u ∈ (s.wk t).held) :
    Step p s
      { s.set t { s.wk t with held := (s.wk t).held.filter (· ≠ u), popped := (s.wk t).popped ++ [u] } with
        tr := upd s.tr u movedLocally }
  /-- A new local minimum: some of the popped nodes were moved, FM 171-198. -/
  | improve (s : St) (t : Nat) (l : List Nat) (ht : t < p.workers) (h : (s.wk t).pc = .search)
      (h1 : ∀ u ∈ l, u ∈ (s.wk t).popped) :
    Step p s (s.set t { s.wk t with pc := .apply l })
  /-- One of them is marked, FM 176 and 195. -/
  | mark (s : St) (t u : Nat) (l : List Nat) (ht : t < p.workers) (h : (s.wk t).pc = .apply (u :: l)) :
    Step p s { s.set t { s.wk t with pc := .apply l } with tr := upd s.tr u movedGlobally }
  | marked (s : St) (t : Nat) (ht : t < p.workers) (h : (s.wk t).pc = .apply []) :
    Step p s (s.set t { s.wk t with pc := .search })
  /-- The owner of a neighbour is read: it is free, FM 222-228.  (In the other cases the tracker is not used.) -/
  | visit (s : St) (t v : Nat) (ht : t < p.workers) (h : (s.wk t).pc = .search) (h1 : s.tr v = unlocked) :
    Step p s (s.set t { s.wk t with pc := .lock v })
  /-- `lock` succeeds, FM 228-233. -/
  | touch (s : St) (t v : Nat) (ht : t < p.workers) (h : (s.wk t).pc = .lock v) (h1 : s.tr v = unlocked) :
    Step p s
      { s.set t { s.wk t with pc := .search, held := (s.wk t).held ++ [v], touched := (s.wk t).touched ++ [v] } with
        tr := upd s.tr v (idOf t)
        locks := s.locks ++ [(t, v)] }
  /-- `lock` fails. -/
  | noTouch (s : St) (t v : Nat) (ht : t < p.workers) (h : (s.wk t).pc = .lock v) (h1 : s.tr v ≠ unlocked) :
    Step p s (s.set t { s.wk t with pc := .search })
  /-- The main loop ends, the queues are cleared, FM 239-242. -/
  | stop (s : St) (t : Nat) (ht : t < p.workers) (h : (s.wk t).pc = .search) :
    Step p s (s.set t { s.wk t with
      pc := .free ((s.wk t).seeds.map (fun u => (true, u)) ++ (s.wk t).touched.map (fun u => (false, u)))
      held := [], popped := [] })
  /-- Seed nodes are not unlocked, FM 259-260. -/
  | keepSeed (s : St) (t u : Nat) (l : List (Bool × Nat)) (ht : t < p.workers) (h : (s.wk t).pc = .free ((true, u) :: l))
      (h1 : p.unlockSeeds = false) :
    Step p s { s.set t { s.wk t with pc := .free l } with tr := upd s.tr u movedGlobally }
  /-- `unlock_touched_node` reads the owner, FM 245. -/
  | read (s : St) (t : Nat) (x : Bool × Nat) (l : List (Bool × Nat)) (ht : t < p.workers)
      (h : (s.wk t).pc = .free (x :: l)) (h1 : p.unlockSeeds = true ∨ x.1 = false) :
    Step p s (s.set t { s.wk t with pc := .freed x.2 (s.tr x.2) l })
  /-- ... and stores the new state, FM 246-254. -/
  | unlock (s : St) (t u : Nat) (o y : Int) (l : List (Bool × Nat)) (ht : t < p.workers) (h : (s.wk t).pc = .freed u o l)
      (h1 : release p t o = some y) :
    Step p s { s.set t { s.wk t with pc := .free l } with tr := upd s.tr u y }
  | leave (s : St) (t u : Nat) (o : Int) (l : List (Bool × Nat)) (ht : t < p.workers) (h : (s.wk t).pc = .freed u o l)
      (h1 : release p t o = none) :
    Step p s (s.set t { s.wk t with pc := .free l })
  /-- The batch ends, FM 274-281. -/
  | done (s : St) (t : Nat) (ht : t < p.workers) (h : (s.wk t).pc = .free []) :
    Step p s (s.set t { s.wk t with pc := .out, touched := [] })

/-- Any number of steps. -/
inductive Reach (p : Params) (s : St) : St → Prop
  | refl : Reach p s s
  | step {a b : St} : Reach p s a → Step p a b → Reach p s b

/-- The state after `BorderNodes::init`, BN 27-36: no node is locked, no worker runs a batch. -/
def St.init : St :=
  { tr := fun _ => unlocked, next := 0, wk := fun _ => ⟨.out, [], [], [], []⟩, locks := [], handed := [] }

end Verif.FM.Tracker
