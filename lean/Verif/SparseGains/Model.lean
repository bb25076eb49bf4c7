import Verif.Graph.Basic
import Verif.CompactMap.Model
import Verif.Math.Model

/-!
# Model of the sparse gain cache

Source: `kaminpar-shm/refinement/gains/sparse_gain_cache.h` (SC).  The degree buckets of the graph (`bucket_size`,
`number_of_buckets`, see `Verif/CsrGraph`) and the degree threshold, which is computed from the configuration
(SC 149-152), are parameters.  `none`: undefined behaviour (a shift, or a loop that does not end).  Statistics are
not modelled.
-/

namespace Verif.SparseGains
open Verif.CompactMap Verif.Math

/-- Where the entries of the nodes are, SC 506-521; `W` is the width of `UnsignedEdgeWeight`. -/
structure Layout where
  W : Nat
  n : Nat
  k : Nat
  thr : Nat
  bthr : Nat
  bkt : Nat → Nat
  off : Nat → Nat
  bits : Nat
  sparseOff : Nat

/-- `_gain_cache` with its size, and `_weighted_degrees`. -/
structure St where
  cache : Nat → Nat
  size : Nat
  wdeg : Nat → Nat

/-! ## Lookups -/

/-- The inner loop of `find_bucket`, SC 335-337. -/
def findInner (bkt : Nat → Nat) (node : Nat) : Nat → Nat → Nat
  | 0, b => b
  | i + 1, b => findInner bkt node i (b + if node ≥ bkt (b + 1) then 1 else 0)

/-- The outer loop of `find_bucket`, SC 334-338. -/
def findOuter (bkt : Nat → Nat) (node : Nat) : Nat → Nat → Option Nat
  | 0, _ => none
  | fuel + 1, b => if node ≥ bkt (b + 1) then findOuter bkt node fuel (findInner bkt node 8 b) else some b

/-- `find_bucket`, SC 328-340. -/
def findBucket? (L : Layout) (node : Nat) : Option Nat := findOuter L.bkt node numDegreeBuckets 0

/-- `index_dense`, SC 405-411: first entry and number of entries of the table of a node. -/
def indexDense? (L : Layout) (node : Nat) : Option (Nat × Nat) := do
  let bucket ← findBucket? L node
  let size ← lowestDegreeInBucket? (bucket + 1)
  some (L.off bucket + (node - L.bkt bucket) * size, size)

/-- `create_dense_wrapper`, SC 413-423: the hash map over `size` entries. -/
def wrapper (L : Layout) (size : Nat) : Cfg := { W := L.W, b := L.bits, p := Nat.log2 size, full := false }

/-- The pointer `_gain_cache.data() + start`. -/
def win (cache : Nat → Nat) (start : Nat) : Nat → Nat := fun i => cache (start + i)

/-- The memory after it was changed through that pointer. -/
def put (cache : Nat → Nat) (start : Nat) (data : Nat → Nat) : Nat → Nat :=
  fun i => if start ≤ i then data (i - start) else cache i

/-- `index_sparse`, SC 429-432. -/
def indexSparse (L : Layout) (node block : Nat) : Nat := L.sparseOff + (node - L.thr) * L.k + block

/-- `static_cast<EdgeWeight>` of an unsigned value. -/
def toSigned (W x : Nat) : Int := if x < 2 ^ (W - 1) then x else (x : Int) - 2 ^ W

/-- `static_cast<UnsignedEdgeWeight>`. -/
def toUnsigned (W : Nat) (x : Int) : Nat := (x % 2 ^ W).toNat

/-- `weighted_degree_to` and `conn`, SC 377-388 and 218-220; `in_sparse_part`, SC 447-449. -/
def conn? (L : Layout) (cache : Nat → Nat) (node block : Nat) : Option Int :=
  if node ≥ L.thr then some (toSigned L.W (cache (indexSparse L node block)))
  else do
    let (start, size) ← indexDense? L node
    let v ← (wrapper L size).get? (win cache start) block
    some (toSigned L.W v)

/-- `gain`, SC 208-211. -/
def gain? (L : Layout) (cache : Nat → Nat) (node «from» «to» : Nat) : Option Int := do
  let a ← conn? L cache node «to»
  let b ← conn? L cache node «from»
  some (a - b)

/-- `gains`, SC 223-267, for the values of the two template parameters.  The buffer is a function that is 0
where nothing was set. -/
def gains? (nonadjacent exact : Bool) (L : Layout) (cache : Nat → Nat) (node «from» : Nat) :
    Option (List (Nat × Int)) :=
  if node ≥ L.thr then
    let conn := fun b => toSigned L.W (cache (indexSparse L node b))
    let connFrom := if exact then conn «from» else 0
    some ((List.range L.k).filterMap fun b =>
      if «from» = b then none
      else if nonadjacent then some (b, conn b - connFrom)
      else if conn b > 0 then some (b, conn b - connFrom) else none)
  else
    (indexDense? L node).bind fun r =>
      ((wrapper L r.2).get? (win cache r.1) «from»).map fun cf =>
        let connFrom := if exact then toSigned L.W cf else 0
        let entries := ((wrapper L r.2).forEach (win cache r.1)).map fun e => (e.1, toSigned L.W e.2)
        if nonadjacent then
          let buffer := entries.foldl (fun (m : Nat → Int) e => upd m e.1 e.2) fun _ => 0
          (List.range L.k).filterMap fun b => if «from» ≠ b then some (b, buffer b - connFrom) else none
        else entries.filterMap fun e => if e.1 ≠ «from» then some (e.1, e.2 - connFrom) else none

/-- `weighted_degree`, SC 372-375: the most significant bit is the lock. -/
def weightedDegree (W x : Nat) : Int := toSigned W (x % 2 ^ (W - 1))

/-- `is_border_node`, SC 292-295. -/
def isBorder? (L : Layout) (s : St) (node block : Nat) : Option Bool := do
  let c ← conn? L s.cache node block
  some (weightedDegree L.W (s.wdeg node) != c)

/-! ## Updates -/

/-- Adding weight to the entry of a node and a block: SC 275, 282, 473 and 480. -/
def add? (L : Layout) (cache : Nat → Nat) (node block : Nat) (w : Int) : Option (Nat → Nat) :=
  if node ≥ L.thr then
    let i := indexSparse L node block
    some (upd cache i ((cache i + toUnsigned L.W w) % 2 ^ L.W))
  else do
    let (start, size) ← indexDense? L node
    let (data, _) ← (wrapper L size).increaseBy? (win cache start) block (toUnsigned L.W w)
    some (put cache start data)

/-- Subtracting weight: SC 274 and 281. -/
def sub? (L : Layout) (cache : Nat → Nat) (node block : Nat) (w : Int) : Option (Nat → Nat) :=
  if node ≥ L.thr then
    let i := indexSparse L node block
    some (upd cache i ((cache i + 2 ^ L.W - toUnsigned L.W w) % 2 ^ L.W))
  else do
    let (start, size) ← indexDense? L node
    let (data, _) ← (wrapper L size).decreaseBy? (win cache start) block (toUnsigned L.W w)
    some (put cache start data)

/-- A step of a `move` (SC 269-290): subtracting (`add = false`) or adding the weight of edge `i` of the moved
node `u` from or to the entry of its neighbour and `block`.  Calls for the table of the same neighbour exclude each
other by the lock (`Verif/SparseGains/Lock.lean`), so that each call is one step.  The lock is also held between the
two calls for one edge; the model allows other threads to run there. -/
structure Step where
  u : Nat
  i : Nat
  add : Bool
  block : Nat
  deriving DecidableEq, Repr

def step? (g : Graph) (L : Layout) (cache : Nat → Nat) (s : Step) : Option (Nat → Nat) := do
  let e ← (g.adj s.u)[s.i]?
  if s.add then add? L cache e.1 s.block e.2 else sub? L cache e.1 s.block e.2

/-- `move`, SC 269-290: the steps of one thread that moves `u`, in order. -/
def moveSteps (g : Graph) (u «from» «to» : Nat) : List Step :=
  (List.range (g.adj u).length).flatMap fun i => [⟨u, i, false, «from»⟩, ⟨u, i, true, «to»⟩]

/-! ## Initialisation -/

/-- The loop SC 155-162: number of buckets and nodes with hash tables, size of the tables, offsets. -/
def layoutLoop (n threshold : Nat) (deg bsize : Nat → Nat) :
    Nat → Nat → Nat → Nat → (Nat → Nat) → Option (Nat × Nat × Nat × (Nat → Nat))
  | 0, _, _, _, _ => none
  | fuel + 1, b, node, gc, off =>
    if node < n ∧ deg node < threshold then do
      let low ← lowestDegreeInBucket? (b + 1)
      layoutLoop n threshold deg bsize fuel (b + 1) (node + bsize b) (gc + bsize b * low) (upd off b gc)
    else some (b, node, gc, off)

/-- `init_buckets`, SC 320-326. -/
def initBuckets (n nb : Nat) (bsize : Nat → Nat) : Nat → Nat :=
  let a := (List.range nb).foldl (fun a b => upd a (b + 1) (a b + bsize b)) fun _ => 0
  fun i => if nb ≤ i then n else a i

/-- The layout computed by `initialize`, SC 119-181, and the required size of the array. -/
def initLayout? (W k threshold : Nat) (sorted : Bool) (bsize : Nat → Nat) (nb : Nat) (oldOff : Nat → Nat)
    (g : Graph) : Option (Layout × Nat) := do
  let bits ← ceilLog2? 32 k
  if sorted then
    let (b, node, gc, off) ← layoutLoop g.n threshold (fun u => (g.adj u).length) bsize numDegreeBuckets 0 0 0 (upd oldOff 0 0)
    let off := fun i => if b ≤ i then gc else off i
    some ({ W, n := g.n, k, thr := node, bthr := b, bkt := initBuckets g.n nb bsize, off, bits, sparseOff := off b },
      gc + (g.n - node) * k)
  else
    some ({ W, n := g.n, k, thr := 0, bthr := 0, bkt := initBuckets g.n nb bsize, off := upd oldOff 0 0, bits, sparseOff := 0 },
      g.n * k)

/-- One edge of node `u` in `recompute`, SC 470-481. -/
def recomputeEdge? (L : Layout) (part : Nat → Nat) (u : Nat) (s : St) (e : Nat × Int) : Option St := do
  let c ← add? L s.cache u (part e.1) e.2
  some { s with cache := c, wdeg := upd s.wdeg u ((s.wdeg u + toUnsigned L.W e.2) % 2 ^ L.W) }

/-- One node in `recompute`, SC 466-483. -/
def recompute? (L : Layout) (g : Graph) (part : Nat → Nat) (s : St) (u : Nat) : Option St :=
  (g.adj u).foldlM (recomputeEdge? L part u) { s with wdeg := upd s.wdeg u 0 }

/-- `initialize`, SC 119-201; `order`: the order in which the parallel loop over the nodes runs. -/
def init? (W k threshold : Nat) (sorted : Bool) (bsize : Nat → Nat) (nb : Nat) (oldOff : Nat → Nat) (old : St)
    (g : Graph) (part : Nat → Nat) (order : List Nat) : Option (Layout × St) := do
  let (L, gc) ← initLayout? W k threshold sorted bsize nb oldOff g
  let size := max old.size gc
  let s : St := { cache := fun i => if i < size then 0 else old.cache i, size, wdeg := old.wdeg }
  let s ← order.foldlM (recompute? L g part) s
  some (L, s)

end Verif.SparseGains
