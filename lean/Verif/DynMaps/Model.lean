import Verif.Maps.Model

/-!
# Model of the growing flat hash maps

Source: `kaminpar-common/datastructures/dynamic_map.h` (DM): `DynamicMapBase`, `DynamicFlatMap` and
`DynamicRememberingFlatMap`.  Values are integers, `Value()` is `0`.
-/

namespace Verif.DynMaps

open Verif.Maps

/-- `MapElement`, DM 134-138 and 238-242. -/
structure Elem where
  key : Nat
  value : Int
  stamp : Nat

/-- `_capacity`, `_size`, `_timestamp` and `_elements`, DM 121-122, 225-227 and 345-347. -/
structure Table where
  cap : Nat
  size : Nat
  stamp : Nat
  elems : Nat → Elem

/-- `initialize`, DM 84-93, with `initialize_impl`, DM 196-200 and 312-315: zeroed memory, timestamp
1.  The capacity is always `16 * 2^i` (DM 74, 103), `align_to_next_power_of_two` leaves it
unchanged. -/
def Table.new (cap : Nat) : Table :=
  { cap := cap, size := 0, stamp := 1, elems := fun _ => ⟨0, 0, 0⟩ }

/-- The key in a slot of the current generation, the loop conditions in DM 177 and 290. -/
def Table.slot (t : Table) (i : Nat) : Option Nat :=
  if (t.elems i).stamp = t.stamp then some (t.elems i).key else none

/-- `find_impl`, DM 175-184 and 286-298: the position and whether the key was found (the code sets the
most significant bit of the position if not).  `none`: no termination. -/
def Table.find? (t : Table) (k : Nat) : Option (Nat × Bool) :=
  probe t.slot t.cap k t.cap (murmur64 k % t.cap)

/-- Writing an element, DM 191, 308 and 332. -/
def Table.write (t : Table) (p k : Nat) (v : Int) : Table :=
  { t with elems := upd t.elems p ⟨k, v, t.stamp⟩ }

/-- Assigning `f` of the value at a position to it. -/
def Table.modifyAt (t : Table) (p : Nat) (f : Int → Int) : Table :=
  { t with elems := upd t.elems p { t.elems p with value := f (t.elems p).value } }

/-- `contains`, DM 31-34. -/
def Table.contains? (t : Table) (k : Nat) : Option Bool := (t.find? k).map (·.2)

/-- `get_if_contained`, DM 53-60: outer `none` for no termination, inner `none` for `nullptr`. -/
def Table.getIfContained? (t : Table) (k : Nat) : Option (Option Int) := do
  let (p, found) ← t.find? k
  some (if found then some (t.elems p).value else none)

/-- The growth condition, DM 41. -/
def Table.mustGrow (t : Table) : Bool := decide (t.size + 1 > t.cap * 2 / 5)

/-- `++_timestamp` for a `w`-bit unsigned timestamp type, DM 217 and 337. -/
def nextStamp (w stamp : Nat) : Nat := (stamp + 1) % 2 ^ w

/-! ## DynamicFlatMap -/

/-- One step of `rehash_impl`, DM 209-212, with `add_element_impl`, DM 190-194. -/
def Flat.rehashStep (old : Table) (t : Table) (i : Nat) : Option Table :=
  if (old.elems i).stamp = old.stamp then do
    let (p, _) ← t.find? (old.elems i).key
    let t := t.write p (old.elems i).key (old.elems i).value
    some { t with size := t.size + 1 }
  else some t

/-- `grow`, DM 100-110, with `rehash_impl`, DM 202-214. -/
def Flat.grow? (t : Table) : Option Table :=
  (List.range t.cap).foldlM (Flat.rehashStep t) (Table.new (2 * t.cap))

/-- `operator[]`, DM 36-47, followed by the assignment of `f` of the referenced value to it. -/
def Flat.modify? (t : Table) (k : Nat) (f : Int → Int) : Option Table := do
  let (p, found) ← t.find? k
  if found then some (t.modifyAt p f)
  else
    let (t, p) ← if t.mustGrow then do
        let t ← Flat.grow? t
        let (p, _) ← t.find? k
        some (t, p)
      else some (t, p)
    let t := t.write p k 0
    some ({ t with size := t.size + 1 }.modifyAt p f)

/-- `clear`, DM 66-69 and 216-218; the timestamp has 64 bits. -/
def Flat.clear (t : Table) : Table := { t with size := 0, stamp := nextStamp 64 t.stamp }

/-- `for_each`, DM 162-168. -/
def Flat.forEach (t : Table) : List (Nat × Int) :=
  (List.range t.cap).filterMap fun i =>
    if (t.elems i).stamp = t.stamp then some ((t.elems i).key, (t.elems i).value) else none

/-! ## DynamicRememberingFlatMap -/

/-- The table and `_used_elements`, DM 348. -/
structure Rem where
  table : Table
  used : List Nat

/-- The constructor, DM 254-256 and 76-80. -/
def Rem.new : Rem := { table := Table.new 16, used := [] }

/-- One step of `rehash_impl`, DM 325-333.  The code overwrites `_used_elements[i]` in place; the
model builds the list of new positions. -/
def Rem.rehashStep (old : Table) (s : Rem) (pos : Nat) : Option Rem := do
  let (p, _) ← s.table.find? (old.elems pos).key
  some { table := s.table.write p (old.elems pos).key (old.elems pos).value, used := s.used ++ [p] }

/-- `grow`, DM 100-110, with `rehash_impl`, DM 317-334. -/
def Rem.grow? (s : Rem) : Option Rem :=
  (s.used.take s.table.size).foldlM (Rem.rehashStep s.table)
    { table := { Table.new (2 * s.table.cap) with size := s.table.size }, used := [] }

/-- `operator[]`, DM 36-47, with `add_element_impl`, DM 304-310, followed by the assignment of `f` of
the referenced value to it. -/
def Rem.modify? (s : Rem) (k : Nat) (f : Int → Int) : Option Rem := do
  let (p, found) ← s.table.find? k
  if found then some { s with table := s.table.modifyAt p f }
  else
    let (s, p) ← if s.table.mustGrow then do
        let s ← s.grow?
        let (p, _) ← s.table.find? k
        some (s, p)
      else some (s, p)
    let t := s.table.write p k 0
    some { table := { t with size := t.size + 1 }.modifyAt p f, used := s.used ++ [p] }

/-- `clear`, DM 66-69 and 336-339, for a `w`-bit timestamp type. -/
def Rem.clear (w : Nat) (s : Rem) : Rem :=
  { table := { s.table with size := 0, stamp := nextStamp w s.table.stamp }, used := [] }

/-- `for_each`, DM 266-271. -/
def Rem.forEach (s : Rem) : List (Nat × Int) :=
  s.used.map fun p => ((s.table.elems p).key, (s.table.elems p).value)

/-- `entries`, DM 273-279; `none`: read behind the end of `_used_elements`. -/
def Rem.entries? (s : Rem) : Option (List (Nat × Int)) :=
  (List.range s.table.size).mapM fun i => (s.used[i]?).map fun p =>
    ((s.table.elems p).key, (s.table.elems p).value)

end Verif.DynMaps
