import Verif.SparseGains.Model
import Verif.PrefixSum.Model

/-!
# Model of the compact hashing gain cache

Source: `kaminpar-shm/refinement/gains/compact_hashing_gain_cache.h` (CH), the default gain cache of the k-way FM
refinement.  The cache is an array of bytes; the entries of a node have 1, 2, 4 or 8 bytes.  `none`: undefined
behaviour (a shift, or a loop that does not end).  The steps of the moves (`Step`, `moveSteps`) and the conversions
between signed and unsigned numbers are those of `Verif/SparseGains/Model.lean`.  Timers, debug output and assertions
are not modelled.
-/

namespace Verif.CompactGains
open Verif.CompactMap Verif.Math Verif.SparseGains Verif.PrefixSum

/-! ## Memory -/

/-- The `w`-byte number at address `a`, least significant byte first. -/
def readE (mem : Nat → Nat) : Nat → Nat → Nat
  | _, 0 => 0
  | a, w + 1 => mem a + 256 * readE mem (a + 1) w

/-- The array of `w`-byte entries at address `start`: the `reinterpret_cast`s CH 351-381 and 423-447. -/
def win (mem : Nat → Nat) (start w : Nat) : Nat → Nat := fun i => readE mem (start + i * w) w

/-- The memory after `num` entries were written through that pointer. -/
def put (mem : Nat → Nat) (start w num : Nat) (data : Nat → Nat) : Nat → Nat :=
  fun a => if start ≤ a ∧ a < start + num * w then data ((a - start) / w) / 256 ^ ((a - start) % w) % 256 else mem a

/-! ## The layout -/

/-- The members of the class, CH 475-489.  `W` is the width of `EdgeWeight`; `deg` is the degree in the graph; `c0` is
the value of `math::ceil2(0)`, which the standard does not define. -/
structure Layout where
  W : Nat
  c0 : Nat
  n : Nat
  k : Nat
  bits : Nat
  deg : Nat → Nat
  wdeg : Nat → Nat
  off : Nat → Nat

/-- `math::ceil2` of a degree, see `ceil2?`. -/
def ceilDeg? (c0 d : Nat) : Option Nat := if d = 0 then some c0 else ceil2? 32 d

/-- `weighted_degree`, CH 470-473, as unsigned number. -/
def Layout.maxValue (L : Layout) (u : Nat) : Nat := L.wdeg u % 2 ^ (L.W - 1)

/-- `compute_entry_width`, CH 279-290. -/
def Layout.width? (L : Layout) (u : Nat) (withKey : Bool) : Option Nat :=
  if L.maxValue u = 0 then some 0
  else (floorLog2? 64 (L.maxValue u)).bind fun l =>
    ceil2? 32 ((l + 1 + (if withKey then L.bits else 0) + 7) / 8)

/-- `use_hash_table`, CH 292-294. -/
def Layout.useHash? (L : Layout) (u : Nat) : Option Bool := (ceilDeg? L.c0 (L.deg u)).map fun d => decide (d < L.k)

/-- The lambda CH 90-95 (and CH 100-102): alignment and number of bytes of a node; `nbytes` has 32 bits. -/
def Layout.value? (L : Layout) (u : Nat) : Option (Nat × Nat) :=
  (ceilDeg? L.c0 (L.deg u)).bind fun d =>
    (L.width? u (decide (d < L.k))).map fun width =>
      (width, (if d < L.k then width * d else width * L.k) % 2 ^ 32)

/-! ## Lookups -/

/-- `switch (width)`, CH 351 and 423. -/
def knownWidth (width : Nat) : Bool := width == 1 || width == 2 || width == 4 || width == 8

/-- `with_hash_table_impl`, CH 334-387: width of the entries, first byte and number of entries; inside `some`,
`none` is the default case. -/
def Layout.hashTable? (L : Layout) (u : Nat) : Option (Option (Nat × Nat × Nat)) :=
  (L.width? u true).bind fun width =>
    if width > 0 then (floor2? 64 ((L.off (u + 1) - L.off u) / width)).map fun size =>
      if knownWidth width then some (width, L.off u, size) else none
    else some none

/-- `with_full_table`, CH 413-451: width of the entries and first byte. -/
def Layout.fullTable? (L : Layout) (u : Nat) : Option (Option (Nat × Nat)) :=
  (L.width? u false).map fun width => if knownWidth width then some (width, L.off u) else none

/-- `CompactHashMap<Width, true>(storage, size, _bits_for_key)`, CH 394 and 404, and `compact_hash_map.h:39-44`: the
mask `size - 1` is converted to the type of the entries. -/
def hashCfg (bits width size : Nat) : Cfg :=
  { W := 8 * width, b := bits, p := Nat.log2 ((size - 1) % 2 ^ (8 * width) + 1), full := true }

/-- `static_cast<EdgeWeight>` of an entry. -/
def toWeight (W x : Nat) : Int := toSigned W (x % 2 ^ W)

/-- `conn_hash_table`, CH 326-331; the block is converted to the type of the entries. -/
def connHash? (L : Layout) (mem : Nat → Nat) (u b : Nat) : Option Int :=
  (L.hashTable? u).bind fun t =>
    match t with
    | none => some 0
    | some (w, start, size) => ((hashCfg L.bits w size).get? (win mem start w) (b % 2 ^ (8 * w))).map (toWeight L.W)

/-- `conn_full_table`, CH 459-464. -/
def connFull? (L : Layout) (mem : Nat → Nat) (u b : Nat) : Option Int :=
  (L.fullTable? u).map fun t =>
    match t with
    | none => 0
    | some (w, start) => toWeight L.W (win mem start w b)

/-- `conn`, CH 157-159. -/
def conn? (L : Layout) (mem : Nat → Nat) (u b : Nat) : Option Int :=
  (L.useHash? u).bind fun h => if h then connHash? L mem u b else connFull? L mem u b

/-- `gain`, CH 147-150. -/
def gain? (L : Layout) (mem : Nat → Nat) (u fr ub : Nat) : Option Int :=
  (conn? L mem u ub).bind fun a => (conn? L mem u fr).map fun b => a - b

/-- `for_each` of the table of a node, with the conversions CH 171 and 183; nothing in the default case. -/
def entries? (L : Layout) (mem : Nat → Nat) (u : Nat) : Option (List (Nat × Int)) :=
  (L.hashTable? u).map fun t =>
    match t with
    | none => []
    | some (w, start, size) => ((hashCfg L.bits w size).forEach (win mem start w)).map fun e => (e.1, toWeight L.W e.2)

/-- `gains`, CH 162-208, for the values of the two template parameters.  The buffer is a function that is 0 where
nothing was set. -/
def gains? (nonadjacent exact : Bool) (L : Layout) (mem : Nat → Nat) (u fr : Nat) : Option (List (Nat × Int)) :=
  (L.useHash? u).bind fun h =>
    if h then
      (if exact then connHash? L mem u fr else some 0).bind fun connFrom =>
        (entries? L mem u).map fun es =>
          if nonadjacent then
            (List.range L.k).filterMap fun b =>
              if fr ≠ b then some (b, es.foldl (fun (m : Nat → Int) e => upd m e.1 e.2) (fun _ => 0) b - connFrom) else none
          else es.filterMap fun e => if e.1 ≠ fr then some (e.1, e.2 - connFrom) else none
    else
      (if exact then connFull? L mem u fr else some 0).bind fun connFrom =>
        ((List.range L.k).mapM fun b => (connFull? L mem u b).map fun c => (b, c)).map fun cs =>
          cs.filterMap fun e =>
            if fr = e.1 then none
            else if nonadjacent then some (e.1, e.2 - connFrom)
            else if e.2 > 0 then some (e.1, e.2 - connFrom) else none

/-- `is_border_node`, CH 228-231. -/
def isBorder? (L : Layout) (mem : Nat → Nat) (u b : Nat) : Option Bool :=
  (conn? L mem u b).map fun c => toSigned L.W (L.maxValue u) != c

/-! ## Updates -/

/-- A call of `increase_by` (`inc`) or `decrease_by` for the table of a node, CH 215-216 and 254; block and weight
are converted to the type of the entries. -/
def changeHash? (inc : Bool) (L : Layout) (mem : Nat → Nat) (u b : Nat) (w : Int) : Option (Nat → Nat) :=
  (L.hashTable? u).bind fun t =>
    match t with
    | none => some mem
    | some (width, start, size) =>
      let c := hashCfg L.bits width size
      (if inc then c.increaseBy? (win mem start width) (b % 2 ^ (8 * width)) (toUnsigned (8 * width) w)
        else c.decreaseBy? (win mem start width) (b % 2 ^ (8 * width)) (toUnsigned (8 * width) w)).map fun r =>
          put mem start width c.M r.1

/-- The change of an entry without table, CH 221-222 and 260. -/
def changeFull? (inc : Bool) (L : Layout) (mem : Nat → Nat) (u b : Nat) (w : Int) : Option (Nat → Nat) :=
  (L.fullTable? u).map fun t =>
    match t with
    | none => mem
    | some (width, start) =>
      let x := win mem start width b
      let v := toUnsigned (8 * width) w
      put mem (start + b * width) width 1 fun _ =>
        (if inc then x + v else x + 2 ^ (8 * width) - v) % 2 ^ (8 * width)

/-- The change of the weight of a node and a block, CH 212-224. -/
def change? (inc : Bool) (L : Layout) (mem : Nat → Nat) (u b : Nat) (w : Int) : Option (Nat → Nat) :=
  (L.useHash? u).bind fun h => if h then changeHash? inc L mem u b w else changeFull? inc L mem u b w

/-- A step of a `move` (CH 210-226): subtracting or adding the weight of edge `s.i` of the moved node from or to the
weight of its neighbour and `s.block`.  The calls for the table of one neighbour exclude each other by the lock
(`C72_lock`).  The lock is also held between the two calls for one edge; the model allows other threads to run there. -/
def step? (g : Graph) (L : Layout) (mem : Nat → Nat) (s : Step) : Option (Nat → Nat) :=
  ((g.adj s.u)[s.i]?).bind fun e => change? s.add L mem e.1 s.block e.2

/-! ## Initialisation -/

/-- `recompute_weighted_degrees`, CH 267-276. -/
def weightedDegrees (W : Nat) (g : Graph) (old : Nat → Nat) : Nat → Nat :=
  fun u => if u < g.n then (g.adj u).foldl (fun x e => (x + toUnsigned W e.2) % 2 ^ W) 0 else old u

/-- The end of the offsets, CH 98-110. -/
def lastOffset (l : Nat → Nat × Nat) (n : Nat) (off : Nat → Nat) : Nat → Nat :=
  if n > 0 then
    let off := if (l (n - 1)).1 > 0 then upd off (n - 1) (alignUp (l (n - 1)).1 (off (n - 1))) else off
    upd off n (off (n - 1) + (l (n - 1)).2)
  else off

/-- One node in `recompute_gains`, CH 251-263. -/
def recompute? (L : Layout) (g : Graph) (part : Nat → Nat) (mem : Nat → Nat) (u : Nat) : Option (Nat → Nat) :=
  (g.adj u).foldlM (fun mem e => change? true L mem u (part e.1) (toUnsigned L.W e.2)) mem

/-- What the arrays held before: `_gain_cache` with its size in bytes, `_weighted_degrees` and `_offsets`. -/
structure Old where
  mem : Nat → Nat
  size : Nat
  wdeg : Nat → Nat
  off : Nat → Nat

/-- The members after CH 69-110 and the number of bytes.  `threads` is the number of threads of the prefix sum,
`calls1` and `calls2` its calls in the order of execution; `E` is the width of `EdgeID`, the type of the offsets:
offsets that need more bits are not modelled. -/
def layout? (W E c0 k threads : Nat) (calls1 calls2 : List (Nat × Nat × Nat)) (old : Old) (g : Graph) :
    Option (Layout × Nat) :=
  (ceilLog2? 32 k).bind fun bits =>
    let L : Layout := { W, c0, n := g.n, k, bits, deg := fun u => (g.adj u).length, wdeg := weightedDegrees W g old.wdeg, off := old.off }
    ((List.range g.n).mapM L.value?).bind fun vals =>
      let l := fun i => vals.getD i (0, 0)
      let r := par l g.n (min threads (g.n - 1)) calls1 calls2 old.off
      let off := lastOffset l g.n r.1
      if g.n = 0 ∨ off g.n < 2 ^ E then some ({ L with off }, r.2) else none

/-- `initialize` and `recompute_gains`, CH 69-140 and 242-265; `order` is the order in which the parallel loop over the nodes runs.  The result: the
members, the bytes and their number. -/
def init? (W E c0 k threads : Nat) (calls1 calls2 : List (Nat × Nat × Nat)) (old : Old) (g : Graph) (part : Nat → Nat)
    (order : List Nat) : Option (Layout × (Nat → Nat) × Nat) :=
  (layout? W E c0 k threads calls1 calls2 old g).bind fun r =>
    let size := max old.size (8 * ((r.2 + 7) / 8))
    let mem := fun a => if a < size then 0 else old.mem a
    (order.foldlM (recompute? r.1 g part) mem).map fun mem => (r.1, mem, size)

end Verif.CompactGains
