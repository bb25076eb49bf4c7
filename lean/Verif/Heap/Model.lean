import Verif.Util

/-!
# Model of the addressable 4-ary heap

Source: `kaminpar-common/datastructures/binary_heap.h` (BH), class `SharedBinaryHeap` (BH 61-239)
and class `BinaryHeap` (BH 272-457).  The two differ only in where `size()` is kept; the array
entries of `BinaryHeap` behind `_size` are never read.  Keys are signed integers.
-/

namespace Verif.Heap

/-- Which comparator: `max_heap_comparator` or `min_heap_comparator`, BH 19-31. -/
inductive Kind
  | max
  | min
  deriving DecidableEq, Repr

/-- `operator()(a, b)`, BH 21-23 and 28-30. -/
def Kind.cmp : Kind → Int → Int → Bool
  | .max, a, b => decide (b > a)
  | .min, a, b => decide (a > b)

/-- `kMinValue` for a signed `w`-bit key, BH 20 and 27. -/
def Kind.minValue (w : Nat) : Kind → Int
  | .max => 2 ^ (w - 1) - 1
  | .min => -(2 ^ (w - 1))

/-- `_heap`, `_size`, `_id_pos` (`none` for `kInvalidID`), `_capacity`. -/
structure Heap where
  cap : Nat
  size : Nat
  heap : Nat → Nat × Int
  idPos : Nat → Option Nat

/-- The constructor, BH 279-282. -/
def Heap.new (cap : Nat) : Heap :=
  { cap := cap, size := 0, heap := fun _ => (0, 0), idPos := fun _ => none }

/-- `contains`, BH 305-308. -/
def Heap.contains (s : Heap) (id : Nat) : Bool := (s.idPos id).isSome

/-- `key`, BH 310-313; `none`: `contains(id)` is false. -/
def Heap.key? (s : Heap) (id : Nat) : Option Int := (s.idPos id).map fun p => (s.heap p).2

/-- `peek_id`, BH 315-318; `none`: empty heap. -/
def Heap.peekId? (s : Heap) : Option Nat := if s.size = 0 then none else some (s.heap 0).1

/-- `peek_key`, BH 320-323; `none`: empty heap. -/
def Heap.peekKey? (s : Heap) : Option Int := if s.size = 0 then none else some (s.heap 0).2

/-- The two swaps, BH 421-422 and 449-450: first the elements, then the positions of the IDs now at
`i` and `j`. -/
def Heap.swap (s : Heap) (i j : Nat) : Heap :=
  let heap := upd (upd s.heap i (s.heap j)) j (s.heap i)
  let a := (heap i).1
  let b := (heap j).1
  { s with heap := heap, idPos := upd (upd s.idPos a (s.idPos b)) b (s.idPos a) }

/-- `sift_up`, BH 417-426.  `pos` decreases, so `fuel = pos` iterations suffice. -/
def Heap.siftUp (k : Kind) : Nat → Heap → Nat → Heap
  | 0, s, _ => s
  | fuel + 1, s, pos =>
    if pos = 0 then s
    else
      let parent := (pos - 1) / 4
      Heap.siftUp k fuel
        (if k.cmp (s.heap parent).2 (s.heap pos).2 then s.swap pos parent else s) parent

/-- The search for the best child, BH 434-440. -/
def Heap.bestChild (k : Kind) (s : Heap) (pos : Nat) : Nat :=
  (List.range' (4 * pos + 2) (min (4 * pos + 5) s.size - (4 * pos + 2))).foldl
    (fun best c => if k.cmp (s.heap best).2 (s.heap c).2 then c else best) (4 * pos + 1)

/-- `sift_down`, BH 428-453.  `pos` increases and stays below the size, so `fuel = size` iterations
suffice. -/
def Heap.siftDown (k : Kind) : Nat → Heap → Nat → Heap
  | 0, s, _ => s
  | fuel + 1, s, pos =>
    if 4 * pos + 1 ≥ s.size then s
    else
      let c := s.bestChild k pos
      if k.cmp (s.heap c).2 (s.heap pos).2 || (s.heap c).2 == (s.heap pos).2 then s
      else Heap.siftDown k fuel (s.swap pos c) c

/-- Operations whose assertion (BH 306, 311, 326, 340, 349-350, 381-382, 395-396) is violated are
undefined. -/
def Heap.push? (k : Kind) (s : Heap) (id : Nat) (key : Int) : Option Heap :=
  if s.contains id ∨ s.cap ≤ id ∨ s.cap ≤ s.size then none
  else
    let s' := { s with
      size := s.size + 1
      heap := upd s.heap s.size (id, key)
      idPos := upd s.idPos id (some s.size) }
    some (s'.siftUp k s.size s.size)

/-- `pop`, BH 339-346. -/
def Heap.pop? (k : Kind) (s : Heap) : Option Heap :=
  if s.size = 0 then none
  else
    let size := s.size - 1
    let heap := upd (upd s.heap 0 (s.heap size)) size (s.heap 0)
    let s' := { s with
      size := size
      heap := heap
      idPos := upd (upd s.idPos (heap 0).1 (some 0)) (heap size).1 none }
    some (s'.siftDown k size 0)

/-- Overwriting the key stored for `id`, BH 383 and 397. -/
def Heap.setKey (s : Heap) (pos : Nat) (key : Int) : Heap :=
  { s with heap := upd s.heap pos ((s.heap pos).1, key) }

/-- `decrease_priority`, BH 380-385 (it moves the element towards the root). -/
def Heap.decreasePriority? (k : Kind) (s : Heap) (id : Nat) (key : Int) : Option Heap :=
  match s.idPos id with
  | none => none
  | some pos =>
    if k.cmp (s.heap pos).2 key then some ((s.setKey pos key).siftUp k pos pos) else none

/-- `increase_priority`, BH 394-399. -/
def Heap.increasePriority? (k : Kind) (s : Heap) (id : Nat) (key : Int) : Option Heap :=
  match s.idPos id with
  | none => none
  | some pos =>
    if k.cmp key (s.heap pos).2 then some ((s.setKey pos key).siftDown k s.size pos) else none

/-- `change_priority`, BH 367-374. -/
def Heap.changePriority? (k : Kind) (s : Heap) (id : Nat) (key : Int) : Option Heap :=
  match s.key? id with
  | none => none
  | some old =>
    if k.cmp key old then s.increasePriority? k id key
    else if k.cmp old key then s.decreasePriority? k id key
    else some s

/-- `push_or_change_priority`, BH 359-365. -/
def Heap.pushOrChange? (k : Kind) (s : Heap) (id : Nat) (key : Int) : Option Heap :=
  if s.contains id then s.changePriority? k id key else s.push? k id key

/-- `remove`, BH 325-330. -/
def Heap.remove? (k : Kind) (w : Nat) (s : Heap) (id : Nat) : Option Heap := do
  let s ← s.decreasePriority? k id (k.minValue w)
  s.pop? k

/-- `clear`, BH 332-337. -/
def Heap.clear (s : Heap) : Heap :=
  { s with
    size := 0
    idPos := (List.range s.size).foldl (fun m i => upd m (s.heap i).1 none) s.idPos }

end Verif.Heap
