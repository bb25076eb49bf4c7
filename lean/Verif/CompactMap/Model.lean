import Verif.Maps.Probe

/-!
# Model of the compact hash map

Source: `kaminpar-common/datastructures/compact_hash_map.h` (CHM).
-/

namespace Verif.CompactMap

/-- The template arguments and constructor arguments, CHM 30 and 39: `W` bits per entry, `b` bits per
key, `2^p` entries. -/
structure Cfg where
  W : Nat
  b : Nat
  p : Nat
  full : Bool

/-- `capacity`, CHM 96-98. -/
def Cfg.M (c : Cfg) : Nat := 2 ^ c.p

/-- `value_bits`, CHM 194-196. -/
def Cfg.valueBits (c : Cfg) : Nat := c.W - c.b

/-- `hash`, CHM 161-163. -/
def Cfg.hash (c : Cfg) (key : Nat) : Nat := key &&& (c.M - 1)

/-- `decode_key`, CHM 173-175. -/
def Cfg.decodeKey (c : Cfg) (e : Nat) : Nat := e >>> c.valueBits

/-- `decode_value`, CHM 177-179: the shift to the left is truncated to `W` bits. -/
def Cfg.decodeValue (c : Cfg) (e : Nat) : Nat := (e <<< c.b % 2 ^ c.W) >>> c.b

/-- `encode_key_value`, CHM 181-188. -/
def Cfg.encode (c : Cfg) (key value : Nat) : Nat := (key <<< c.valueBits % 2 ^ c.W) ||| value

/-- `movable`, CHM 120-136. -/
def Cfg.movable (c : Cfg) (key src dst : Nat) : Bool :=
  let h := c.hash key
  decide ((if src < h then 1 else 0) + (if h ≤ dst then 1 else 0) + (if src > dst then 1 else 0) ≥ 2)

/-- The loop of `find`, CHM 146-156, from position `pos` on; `none`: no termination.  The code starts
with `pos = key - 1` and advances first, hence at `hash key`. -/
def Cfg.findLoop (c : Cfg) (data : Nat → Nat) (key : Nat) : Nat → Nat → Option (Nat × Nat)
  | 0, _ => none
  | fuel + 1, pos =>
    let entry := data pos
    if entry ≠ 0 ∧ c.decodeKey entry ≠ key ∧ (c.full = false ∨ c.hash (pos + 1) ≠ c.hash key) then
      c.findLoop data key fuel (c.hash (pos + 1))
    else some (pos, entry)

/-- `find`, CHM 140-159. -/
def Cfg.find? (c : Cfg) (data : Nat → Nat) (key : Nat) : Option (Nat × Nat) :=
  c.findLoop data key c.M (c.hash key)

/-- `get`, CHM 87-94. -/
def Cfg.get? (c : Cfg) (data : Nat → Nat) (key : Nat) : Option Nat := do
  let (_, entry) ← c.find? data key
  if c.full then some (if c.decodeKey entry = key then c.decodeValue entry else 0)
  else some (c.decodeValue entry)

/-- `increase_by`, CHM 81-85: the new array and the returned flag. -/
def Cfg.increaseBy? (c : Cfg) (data : Nat → Nat) (key value : Nat) :
    Option ((Nat → Nat) × Bool) := do
  let (pos, entry) ← c.find? data key
  some (upd data pos (c.encode key ((c.decodeValue entry + value) % 2 ^ c.W)), entry == 0)

/-- The erase loop of `decrease_by`, CHM 63-71: array, hole and current position. -/
def Cfg.eraseLoop (c : Cfg) (start : Nat) :
    Nat → (Nat → Nat) → Nat → Nat → Option ((Nat → Nat) × Nat)
  | 0, _, _, _ => none
  | fuel + 1, data, hole, cur =>
    let cur := c.hash (cur + 1)
    let entry := data cur
    let (data, hole) :=
      if entry = 0 ∨ c.movable (c.decodeKey entry) cur hole = true then (upd data hole entry, cur)
      else (data, hole)
    if entry ≠ 0 ∧ (c.full = false ∨ cur ≠ start) then c.eraseLoop start fuel data hole cur
    else some (data, hole)

/-- `decrease_by`, CHM 47-78. -/
def Cfg.decreaseBy? (c : Cfg) (data : Nat → Nat) (key value : Nat) :
    Option ((Nat → Nat) × Bool) := do
  let (pos, entry) ← c.find? data key
  if c.decodeValue entry > value then some (upd data pos (entry - value), false)
  else
    let (data, hole) ← c.eraseLoop pos c.M data pos pos
    some (if c.full then upd data hole 0 else data, true)

/-- `count`, CHM 100-106. -/
def Cfg.count (c : Cfg) (data : Nat → Nat) : Nat :=
  (List.range c.M).foldl (fun n i => n + if data i ≠ 0 then 1 else 0) 0

/-- `for_each`, CHM 108-115. -/
def Cfg.forEach (c : Cfg) (data : Nat → Nat) : List (Nat × Nat) :=
  (List.range c.M).filterMap fun i =>
    if data i ≠ 0 then some (c.decodeKey (data i), c.decodeValue (data i)) else none

end Verif.CompactMap
