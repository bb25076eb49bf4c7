import Verif.Maps.Probe

/-!
# Models of the sparse map, the fast-reset array and the fixed-size sparse map

Sources: `kaminpar-common/datastructures/sparse_map.h` (SM), `fast_reset_array.h` (FRA) and
`fixed_size_sparse_map.h` (FSM).  Values are integers, `Value()` is `0`.
-/

namespace Verif.Maps

/-! ## SparseMap -/

/-- `_capacity`, `_size`, `_sparse`, `_dense`, SM 155-159.  Neither array is ever initialised by the
map's own logic, so the model allows arbitrary initial contents. -/
structure SparseMap where
  cap : Nat
  size : Nat
  sparse : Nat → Nat
  dense : Nat → Nat × Int

/-- The constructor, SM 48-51, on memory with contents `sparse`, `dense`. -/
def SparseMap.new (cap : Nat) (sparse : Nat → Nat) (dense : Nat → Nat × Int) : SparseMap :=
  { cap := cap, size := 0, sparse := sparse, dense := dense }

/-- `contains`, SM 79-85.  `SparseMap.get?` and the modifying operations check the assertion
`key < _capacity`. -/
def SparseMap.contains (s : SparseMap) (k : Nat) : Bool :=
  decide (s.sparse k < s.size) && (s.dense (s.sparse k)).1 == k

/-- Appending an element, SM 89-90 and 129-130; `none`: write behind the end of an array. -/
def SparseMap.append? (s : SparseMap) (k : Nat) (v : Int) : Option SparseMap :=
  if s.cap ≤ s.size ∨ s.cap ≤ k then none
  else some { s with
    dense := upd s.dense s.size (k, v), sparse := upd s.sparse k s.size, size := s.size + 1 }

/-- `add`, SM 87-92. -/
def SparseMap.add? (s : SparseMap) (k : Nat) (v : Int) : Option SparseMap :=
  if s.cap ≤ k then none else if s.contains k then some s else s.append? k v

/-- `operator[]`, SM 127-134, followed by the assignment of `f` of the referenced value to it. -/
def SparseMap.modify? (s : SparseMap) (k : Nat) (f : Int → Int) : Option SparseMap := do
  let s ← s.add? k 0
  let i := s.sparse k
  some { s with dense := upd s.dense i ((s.dense i).1, f (s.dense i).2) }

/-- `remove`, SM 94-101. -/
def SparseMap.remove? (s : SparseMap) (k : Nat) : Option SparseMap :=
  if s.cap ≤ k then none
  else if s.contains k then
    let i := s.sparse k
    let last := s.size - 1
    let dense := upd (upd s.dense i (s.dense last)) last (s.dense i)
    some { s with dense := dense, sparse := upd s.sparse (dense i).1 i, size := s.size - 1 }
  else some s

/-- `clear`, SM 123-125. -/
def SparseMap.clear (s : SparseMap) : SparseMap := { s with size := 0 }

/-- `get`, SM 136-139; `none`: assertion violated. -/
def SparseMap.get? (s : SparseMap) (k : Nat) : Option Int :=
  if s.contains k then some (s.dense (s.sparse k)).2 else none

/-- The range `begin()`..`end()`, SM 103-117. -/
def SparseMap.entries (s : SparseMap) : List (Nat × Int) := (List.range s.size).map s.dense

/-! ## FastResetArray -/

/-- `_data` and `_used_entries`, FRA 120-121. -/
structure FastResetArray where
  cap : Nat
  data : Nat → Int
  used : List Nat

/-- The constructor, FRA 27-29 (`StaticArray` zero-initialises). -/
def FastResetArray.new (cap : Nat) : FastResetArray :=
  { cap := cap, data := fun _ => 0, used := [] }

/-- `operator[]`, FRA 36-51, followed by the assignment of `f` of the referenced value to it;
`set` (FRA 59-61) is the case of a constant `f`. -/
def FastResetArray.modify? (s : FastResetArray) (k : Nat) (f : Int → Int) :
    Option FastResetArray :=
  if s.cap ≤ k then none
  else some { s with
    used := if s.data k = 0 then s.used ++ [k] else s.used
    data := upd s.data k (f (s.data k)) }

/-- `get`, FRA 56-58. -/
def FastResetArray.get (s : FastResetArray) (k : Nat) : Int := s.data k

/-- `exists`, FRA 63-65. -/
def FastResetArray.existsAt (s : FastResetArray) (k : Nat) : Bool := s.data k != 0

/-- `entries`, FRA 79-87. -/
def FastResetArray.entries (s : FastResetArray) : List (Nat × Int) :=
  s.used.map fun k => (k, s.data k)

/-- `clear`, FRA 89-94. -/
def FastResetArray.clear (s : FastResetArray) : FastResetArray :=
  { s with data := s.used.foldl (fun d p => upd d p 0) s.data, used := [] }

/-! ## FixedSizeSparseMap -/

/-- `murmur64`, FSM 64-71, on 64-bit words. -/
def murmur64 (key : Nat) : Nat :=
  let w := 2 ^ 64
  let key := key % w
  let key := key ^^^ (key >>> 33)
  let key := key * 0xff51afd7ed558ccd % w
  let key := key ^^^ (key >>> 33)
  let key := key * 0xc4ceb9fe1a85ec53 % w
  key ^^^ (key >>> 33)

/-- `_map_size`, `_size`, `_timestamp`, `_sparse` (the element pointer is the index into `_dense`),
`_dense`, FSM 216-223.  The 64-bit timestamp does not wrap in the model. -/
structure FixedMap where
  mapSize : Nat
  size : Nat
  timestamp : Nat
  sparse : Nat → Nat × Nat
  dense : Nat → Nat × Int

/-- Construction and `allocate`, FSM 77-99 and 192-209, for a power of two `mapSize`. -/
def FixedMap.new (mapSize : Nat) : FixedMap :=
  { mapSize := mapSize, size := 0, timestamp := 1, sparse := fun _ => (0, 0),
    dense := fun _ => (0, 0) }

/-- The key in a slot of the current generation. -/
def FixedMap.slot (s : FixedMap) (i : Nat) : Option Nat :=
  if (s.sparse i).2 = s.timestamp then some (s.dense (s.sparse i).1).1 else none

/-- `find`, FSM 165-176, with the result of `containsValidElement`, FSM 178-183.  `none`: the loop
does not terminate. -/
def FixedMap.find? (s : FixedMap) (k : Nat) : Option (Nat × Bool) :=
  probe s.slot s.mapSize k s.mapSize (murmur64 k % s.mapSize)

/-- `contains`, FSM 123-125. -/
def FixedMap.contains? (s : FixedMap) (k : Nat) : Option Bool := (s.find? k).map (·.2)

/-- `get`, FSM 123-125; `none` also if the key is not contained. -/
def FixedMap.get? (s : FixedMap) (k : Nat) : Option Int := do
  let (p, found) ← s.find? k
  if found then some (s.dense (s.sparse p).1).2 else none

/-- `operator[]`, FSM 141-149 with `addElement`, FSM 185-190, followed by the assignment of `f` of
the referenced value to it.  `none`: no termination or a write behind the end of `_dense`. -/
def FixedMap.modify? (init : Int) (s : FixedMap) (k : Nat) (f : Int → Int) : Option FixedMap := do
  let (p, found) ← s.find? k
  if found then
    let i := (s.sparse p).1
    some { s with dense := upd s.dense i ((s.dense i).1, f (s.dense i).2) }
  else if s.mapSize ≤ s.size then none
  else some { s with
    dense := upd s.dense s.size (k, f init)
    sparse := upd s.sparse p (s.size, s.timestamp)
    size := s.size + 1 }

/-- `clear`, FSM 151-154. -/
def FixedMap.clear (s : FixedMap) : FixedMap :=
  { s with size := 0, timestamp := s.timestamp + 1 }

/-- `begin()`..`end()`, FSM 111-122. -/
def FixedMap.entries (s : FixedMap) : List (Nat × Int) := (List.range s.size).map s.dense

end Verif.Maps
