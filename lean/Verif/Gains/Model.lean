import Verif.Graph.Basic
import Verif.Delta.Model

/-!
# Model of the gain caches

Sources: `kaminpar-shm/refinement/gains/dense_gain_cache.h` (DC), `on_the_fly_gain_cache.h` (OC) and
`delta_gain_caches.h` (GC).  Sums of edge weights do not overflow.  Statistics and timers are not modelled.
-/

namespace Verif.Gains
open Verif.DynMaps Verif.Delta

/-! ## The dense gain cache -/

/-- `_n`, `_k`, `_gain_cache` and `_weighted_degrees`, DC 165-171, with the sizes of the arrays. -/
structure Dense where
  n : Nat
  k : Nat
  cache : Nat → Int
  size : Nat
  wdeg : Nat → Int
  wsize : Nat

/-- `index`, DC 135-139. -/
def index (k node block : Nat) : Nat := node * k + block

/-- The body of the loop DC 153-161: one edge of node `u`. -/
def Dense.addEdge (part : Nat → Nat) (u : Nat) (s : Dense) (e : Nat × Int) : Dense :=
  { s with
    cache := upd s.cache (index s.k u (part e.1)) (s.cache (index s.k u (part e.1)) + e.2)
    wdeg := upd s.wdeg u (s.wdeg u + e.2) }

/-- The body of the parallel loop of `recompute_all`, DC 151-162. -/
def Dense.recompute (g : Graph) (part : Nat → Nat) (s : Dense) (u : Nat) : Dense :=
  (g.adj u).foldl (Dense.addEdge part u) { s with wdeg := upd s.wdeg u 0 }

/-- `initialize`, DC 51-72; `old` is the cache before the call (any content), `order` the order in which the
parallel loop over the nodes runs (the nodes write to different entries). -/
def Dense.init (g : Graph) (part : Nat → Nat) (k : Nat) (old : Dense) (order : List Nat) : Dense :=
  let s : Dense :=
    { n := g.n, k := k
      cache := fun i => if i < g.n * k then 0 else old.cache i
      size := max old.size (g.n * k)
      wdeg := old.wdeg
      wsize := max old.wsize g.n }
  order.foldl (Dense.recompute g part) s

/-- `weighted_degree_to` and `conn`, DC 129-133 and 88-90. -/
def Dense.conn (s : Dense) (node block : Nat) : Int := s.cache (index s.k node block)

/-- `gain`, DC 78-81. -/
def Dense.gain (s : Dense) (node «from» «to» : Nat) : Int := s.conn node «to» - s.conn node «from»

/-- `gains`, DC 92-113: the pairs passed to the lambda, for the values of the two template parameters. -/
def Dense.gains (nonadjacent exact : Bool) (s : Dense) (node «from» : Nat) : List (Nat × Int) :=
  let connFrom := if exact then s.conn node «from» else 0
  (List.range s.k).filterMap fun b =>
    if «from» = b then none
    else if nonadjacent then some (b, s.conn node b - connFrom)
    else if s.conn node b > 0 then some (b, s.conn node b - connFrom) else none

/-- `is_border_node`, DC 122-125. -/
def Dense.isBorder (s : Dense) (node block : Nat) : Bool := s.wdeg node != s.conn node block

/-- A node that is moved from one block to another. -/
structure Move where
  node : Nat
  «from» : Nat
  «to» : Nat
  deriving DecidableEq, Repr

/-- The atomic operations of `move`, DC 115-120: the entry of the cache and what is added to it. -/
def moveOps (g : Graph) (k : Nat) (m : Move) : List (Nat × Int) :=
  (g.adj m.node).flatMap fun e => [(index k e.1 m.from, -e.2), (index k e.1 m.to, e.2)]

/-- One atomic operation. -/
def Dense.add (s : Dense) (op : Nat × Int) : Dense :=
  { s with cache := upd s.cache op.1 (s.cache op.1 + op.2) }

/-- `move` by a single thread. -/
def Dense.move (g : Graph) (s : Dense) (m : Move) : Dense := (moveOps g s.k m).foldl Dense.add s

/-! ## Gains computed on the fly -/

namespace OnTheFly

/-- `conn_impl`, OC 121-132. -/
def conn (g : Graph) (part : Nat → Nat) (node block : Nat) : Int :=
  (g.adj node).foldl (fun c e => if part e.1 = block then c + e.2 else c) 0

/-- `gain_impl`, OC 79-94. -/
def gain (g : Graph) (part : Nat → Nat) (node «from» «to» : Nat) : Int :=
  let c := (g.adj node).foldl (fun (c : Int × Int) e =>
    if part e.1 = «from» then (c.1 + e.2, c.2)
    else if part e.1 = «to» then (c.1, c.2 + e.2) else c) (0, 0)
  c.2 - c.1

/-- `gain_impl` for two targets, OC 96-119. -/
def gain2 (g : Graph) (part : Nat → Nat) (node b : Nat) (targets : Nat × Nat) : Int × Int :=
  let c := (g.adj node).foldl (fun (c : Int × Int × Int) e =>
    if part e.1 = b then (c.1 + e.2, c.2.1, c.2.2)
    else if part e.1 = targets.1 then (c.1, c.2.1 + e.2, c.2.2)
    else if part e.1 = targets.2 then (c.1, c.2.1, c.2.2 + e.2) else c) (0, 0, 0)
  (c.2.1 - c.1, c.2.2 - c.1)

/-- `is_border_node_impl`, OC 134-147. -/
def isBorder (g : Graph) (part : Nat → Nat) (node block : Nat) : Bool :=
  (g.adj node).any fun e => part e.1 != block

/-- `gains_impl` with `iterate_nonadjacent_blocks`, OC 149-183.  The rating map is a function that is 0 where
nothing was added. -/
def gains (exact : Bool) (g : Graph) (part : Nat → Nat) (k node «from» : Nat) : List (Nat × Int) :=
  let map := (g.adj node).foldl (fun (m : Nat → Int) e => upd m (part e.1) (m (part e.1) + e.2)) fun _ => 0
  let connFrom := if exact then map «from» else 0
  (List.range k).filterMap fun b => if b = «from» then none else some (b, map b - connFrom)

end OnTheFly

/-! ## Thread-local delta gain caches -/

/-- `conn_delta`, GC 84-88 and 179-183; `none`: the search in the hash map does not end. -/
def connDelta? (k : Nat) (t : Table) (node block : Nat) : Option Int := do
  let it ← t.getIfContained? (index k node block)
  some (it.getD 0)

/-- `GenericDeltaGainCache::conn`, GC 43-45, 118-120. -/
def deltaConn? (s : Dense) (t : Table) (node block : Nat) : Option Int := do
  let d ← connDelta? s.k t node block
  some (s.conn node block + d)

/-- `GenericDeltaGainCache::gain`, GC 47-50, 122-125. -/
def deltaGain? (s : Dense) (t : Table) (node «from» «to» : Nat) : Option Int := do
  let a ← connDelta? s.k t node «to»
  let b ← connDelta? s.k t node «from»
  some (s.gain node «from» «to» + a - b)

/-- `conn_from_delta` in `gains`, GC 59 and 134. -/
def deltaFrom? (exact : Bool) (k : Nat) (t : Table) (node «from» : Nat) : Option Int :=
  if exact then connDelta? k t node «from» else some 0

/-- `GenericDeltaGainCache::gains`, GC 57-64. -/
def deltaGains? (exact : Bool) (s : Dense) (t : Table) (node «from» : Nat) : Option (List (Nat × Int)) := do
  let cf ← deltaFrom? exact s.k t node «from»
  (s.gains true exact node «from»).mapM fun p => do
    let d ← connDelta? s.k t node p.1
    some (p.1, p.2 + d - cf)

/-- One edge of `GenericDeltaGainCache::move`, GC 67-70. -/
def deltaEdge? (k : Nat) (m : Move) (t : Table) (e : Nat × Int) : Option Table := do
  let t ← Flat.modify? t (index k e.1 m.from) fun x => x - e.2
  Flat.modify? t (index k e.1 m.to) fun x => x + e.2

/-- `GenericDeltaGainCache::move`, GC 66-71. -/
def deltaMove? (g : Graph) (k : Nat) (t : Table) (m : Move) : Option Table :=
  (g.adj m.node).foldlM (deltaEdge? k m) t

/-- The state of a local search: delta partition, delta gain cache. -/
structure Local where
  delta : Delta
  tab : Table

/-- A local search moves a node (`fm_refiner.cc`: the block before the move is read from the delta partition,
`set_block` and the `move` of the delta gain cache follow), or discards its moves. -/
def Local.op? (g : Graph) (k : Nat) (part : Nat → Nat) (s : Local) : Op → Option Local
  | .setBlock u b => do
    let a ← s.delta.block? part u
    let d ← s.delta.setBlock? g.w part u b
    let t ← deltaMove? g k s.tab ⟨u, a, b⟩
    some ⟨d, t⟩
  | .clear => some ⟨s.delta.clear, Flat.clear s.tab⟩

def Local.new : Local := ⟨Delta.new, Table.new 16⟩

/-! ## The delta gain cache for large `k` -/

/-- One edge of `LargeKGenericDeltaGainCache::move`, GC 153-166; `adj v` is the vector
`_adjacent_blocks_delta[v]` (empty if there is none). -/
def largeEdge? (s : Dense) (m : Move) (st : Table × (Nat → List Nat)) (e : Nat × Int) :
    Option (Table × (Nat → List Nat)) := do
  let t ← Flat.modify? st.1 (index s.k e.1 m.from) fun x => x - e.2
  let d ← connDelta? s.k t e.1 m.to
  let adj := if s.conn e.1 m.to = 0 ∧ d = 0 ∧ m.to ∉ st.2 e.1 then upd st.2 e.1 (st.2 e.1 ++ [m.to]) else st.2
  let t ← Flat.modify? t (index s.k e.1 m.to) fun x => x + e.2
  some (t, adj)

/-- `LargeKGenericDeltaGainCache::move`, GC 152-167. -/
def largeMove? (g : Graph) (s : Dense) (st : Table × (Nat → List Nat)) (m : Move) :
    Option (Table × (Nat → List Nat)) :=
  (g.adj m.node).foldlM (largeEdge? s m) st

/-- `LargeKGenericDeltaGainCache::gains`, GC 132-150. -/
def largeGains? (exact : Bool) (s : Dense) (st : Table × (Nat → List Nat)) (node «from» : Nat) :
    Option (List (Nat × Int)) := do
  let cf ← deltaFrom? exact s.k st.1 node «from»
  let a ← (s.gains false exact node «from»).mapM fun p => do
    let d ← connDelta? s.k st.1 node p.1
    some (p.1, p.2 + d - cf)
  let b ← ((st.2 node).filter (· ≠ «from»)).mapM fun b => do
    let d ← connDelta? s.k st.1 node b
    some (b, s.gain node «from» b + d - cf)
  some (a ++ b)

structure LocalLarge where
  delta : Delta
  tab : Table
  adj : Nat → List Nat

def LocalLarge.op? (g : Graph) (c : Dense) (part : Nat → Nat) (s : LocalLarge) : Op → Option LocalLarge
  | .setBlock u b => do
    let a ← s.delta.block? part u
    let d ← s.delta.setBlock? g.w part u b
    let r ← largeMove? g c (s.tab, s.adj) ⟨u, a, b⟩
    some ⟨d, r.1, r.2⟩
  | .clear => some ⟨s.delta.clear, Flat.clear s.tab, fun _ => []⟩

def LocalLarge.new : LocalLarge := ⟨Delta.new, Table.new 16, fun _ => []⟩

end Verif.Gains
