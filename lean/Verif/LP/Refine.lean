import Verif.LP.Select
import Verif.Graph.Basic
import Verif.Partitioned.Model

/-!
# Model of label propagation refinement

Sources: `kaminpar-shm/label_propagation.h` (LP), `kaminpar-shm/refinement/lp/lp_refiner.cc` (LR).

Which nodes are visited, in which order and by which thread is arbitrary, subject to the condition that no
two threads work on the same node at the same time (see the area `LP/Chunks`).  The active set (LP 507-513,
843-870) only restricts which nodes are visited and is not modelled further.
-/

namespace Verif.LP
open Verif.Partitioned (Op PC)

/-- What the refiner knows: the graph, the number of blocks, `max_block_weight`, `accept_neighbor`
(LR 106-108), `_max_num_neighbors` and the tie-breaking strategy. -/
structure Cfg where
  g : Graph
  k : Nat
  maxW : Nat → Int
  accept : Nat → Nat → Bool
  lim : Nat
  uniform : Bool

/-- The entries of a rating map in some order, with the block weights `wt c` loaded for them. -/
def entriesOf (m : List (Nat × Int)) (es : List Entry) : Prop := (es.map fun e => (e.c, e.r)).Perm m

/-- `r` is a possible choice from the rating map `m`: of `find_best_cluster` and
`find_best_cluster_first_phase` (LP 460-638), where one thread visits all entries, or of
`find_best_cluster_second_phase` (LP 640-815), where the entries are split among tasks.  The loaded weights
of the clusters satisfy `W`. -/
inductive Picks (rule : Rule) (x : Ctx) (m : List (Nat × Int)) (W : Nat → Int → Prop) : Choice → Prop
  | single (es : List Entry) (i j : Nat) (hm : entriesOf m es) (hw : ∀ e ∈ es, W e.c e.w) :
      Picks rule x m W (select rule x es i j)
  | groups (ratingOf : Nat → Int) (gs : List (Option (List Entry × Nat × Nat))) (i j : Nat)
      (hm : entriesOf m (gs.flatMap fun g => match g with | none => [] | some (es, _, _) => es))
      (hw : ∀ g ∈ gs, ∀ es i j, g = some (es, i, j) → ∀ e ∈ es, W e.c e.w) :
      Picks rule x m W (selectGroups rule x ratingOf gs i j)

/-! ## One thread -/

/-- Blocks of the nodes, block weights and `_expected_total_gain` (LP 829). -/
structure Seq where
  part : Nat → Nat
  bw : Nat → Int
  gain : Int

/-- `try_node_move`, LP 818-841, with `move_block_weight` of the partitioned graph executed without
interruption: the node moves iff it fits (LR 110-117, `partitioned_graph.h:179-196`); `own` is the block
loaded before. -/
def tryMove (c : Cfg) (s : Seq) (u own best : Nat) (gain : Int) : Seq × Bool :=
  if s.part u ≠ best then
    if s.bw best + c.g.w u ≤ c.maxW best then
      let bw := upd s.bw best (s.bw best + c.g.w u)
      ({ part := upd s.part u best, bw := upd bw own (bw own - c.g.w u), gain := s.gain + gain }, true)
    else (s, false)
  else (s, false)

/-- `map[c]` of the rating map. -/
def ratingIn (m : List (Nat × Int)) (c : Nat) : Int := ((m.find? fun e => e.1 = c).map Prod.snd).getD 0

/-- `handle_node(u)` without interruption, LP 331-368, 460-541: the possible results.  `store_favored_cluster`
is `false` because the refiner does not use two-hop clustering (LR 22-28, LP 520-522). -/
inductive Visit (c : Cfg) (s : Seq) (u : Nat) : Seq → Prop
  | mk (r : Choice)
      (h : Picks (.refine c.uniform) ⟨c.g.w u, s.part u, s.bw (s.part u), c.maxW, false⟩
        (rate (c.g.adj u) c.lim (c.accept u) s.part) (fun b x => x = s.bw b) r) :
      Visit c s u (tryMove c s u (s.part u) r.best
        (r.gain - ratingIn (rate (c.g.adj u) c.lim (c.accept u) s.part) (s.part u))).1

/-- Any sequence of visits: `perform` in all iterations (LP 1864-1933, LR 77-85) with one thread. -/
inductive Visits (c : Cfg) : Seq → Seq → Prop
  | refl (s : Seq) : Visits c s s
  | step {s s' s'' : Seq} (u : Nat) : Visits c s s' → u < c.g.n → Visit c s' u s'' → Visits c s s''

/-! ## Several threads -/

/-- The search of one thread for the best block of `u`: the block `own` loaded at the beginning (LP 343), the
neighbours still to be read and the rating map. -/
structure Search where
  u : Nat
  own : Nat
  todo : List (Nat × Int)
  m : List (Nat × Int)

/-- The partitioned graph, and the searches. -/
structure State where
  core : Partitioned.State
  look : Nat → Option Search

/-- Thread `t` ends its search and calls an operation of the partitioned graph. -/
def State.call (s : State) (t : Nat) (op : Op) : State where
  core := { s.core with pc := upd s.core.pc t op.start }
  look := upd s.look t none

/-- One step of one of `T` threads. -/
inductive Step (c : Cfg) (T : Nat) : State → State → Prop
  /-- `handle_node` begins, LP 342-343: the block of a node nobody else works on is loaded. -/
  | start (s : State) (t u own : Nat) (ht : t < T) (hu : u < c.g.n) (hl : s.look t = none)
      (hidle : s.core.pc t = .idle) (hp : s.core.part u = some own)
      (hfree : ∀ t', t' < T → (s.core.pc t').node? ≠ some u ∧ ∀ q, s.look t' = some q → q.u ≠ u) :
      Step c T s { s with look := upd s.look t (some ⟨u, own, (c.g.adj u).take c.lim, []⟩) }
  /-- one neighbour is read, LP 487-496, 571-587, 666-679; several tasks may do so in any order in the second
  phase -/
  | see (s : State) (t : Nat) (q : Search) (l1 l2 : List (Nat × Int)) (e : Nat × Int) (b : Nat) (ht : t < T)
      (hl : s.look t = some q) (htodo : q.todo = l1 ++ e :: l2) (hb : s.core.part e.1 = some b) :
      Step c T s { s with look := upd s.look t (some { q with
        todo := l1 ++ l2, m := if c.accept q.u e.1 then addTo q.m b e.2 else q.m }) }
  /-- the first phase gives up on a node with too many different neighbouring blocks, LP 598-602 -/
  | giveUp (s : State) (t : Nat) (q : Search) (ht : t < T) (hl : s.look t = some q) :
      Step c T s { s with look := upd s.look t none }
  /-- the best block is selected, using block weights loaded at any times, and it is the own block,
  LP 821, 840 -/
  | keep (s : State) (t : Nat) (q : Search) (ownW : Int) (r : Choice) (ht : t < T) (hl : s.look t = some q)
      (htodo : q.todo = [])
      (hr : Picks (.refine c.uniform) ⟨c.g.w q.u, q.own, ownW, c.maxW, false⟩ q.m (fun _ _ => True) r)
      (heq : s.core.part q.u = some r.best) :
      Step c T s { s with look := upd s.look t none }
  /-- the best block is selected and it is another block: `move_block_weight` is called, LP 822-824 -/
  | move (s : State) (t : Nat) (q : Search) (ownW : Int) (r : Choice) (ht : t < T) (hl : s.look t = some q)
      (htodo : q.todo = [])
      (hr : Picks (.refine c.uniform) ⟨c.g.w q.u, q.own, ownW, c.maxW, false⟩ q.m (fun _ _ => True) r)
      (hne : s.core.part q.u ≠ some r.best) :
      Step c T s (s.call t (.move q.u q.own r.best (c.maxW r.best)))
  /-- an atomic step of `move_block_weight` and `set_block<false>`, LR 116, 131 -/
  | core (s : State) (t : Nat) (ht : t < T) (hbusy : s.core.pc t ≠ .idle) :
      Step c T s { s with core := s.core.next c.g.w t }

/-- Any number of steps. -/
inductive Reach (c : Cfg) (T : Nat) : State → State → Prop
  | refl (s : State) : Reach c T s s
  | step {s s' s'' : State} : Reach c T s s' → Step c T s' s'' → Reach c T s s''

end Verif.LP
