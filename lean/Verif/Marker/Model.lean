import Verif.Marker.Spec

/-!
# Model of the timestamp marker

Source: `kaminpar-common/datastructures/marker.h` (MK), with `std::vector` as container.
-/

namespace Verif.Marker

/-- Template arguments, MK 21-24: `K` markers, values of `w` bits. -/
structure Cfg where
  K : Nat
  w : Nat

/-- `_data`, `_marker_id`, `_first_unmarked_element`, MK 110-112. -/
structure State where
  size : Nat
  data : Nat → Nat
  id : Nat
  first : Nat → Nat

/-- The constructor, MK 31-36. -/
def State.new (cap : Nat) : State :=
  { size := cap, data := fun _ => 0, id := 0, first := fun _ => 0 }

/-- `(1u << kNumConcurrentMarkers) - 1u`, MK 49. -/
def Cfg.ones (c : Cfg) : Nat := 1 <<< c.K - 1

/-- `~((1u << kNumConcurrentMarkers) - 1u)`, MK 49: a 32-bit value, whatever `Value` is. -/
def Cfg.mask (c : Cfg) : Nat := 2 ^ 32 - 1 - c.ones

/-- `get`, MK 66-70, for an existing element. -/
def Cfg.get (c : Cfg) (s : State) (e m : Nat) : Bool :=
  (s.data e &&& c.mask) == s.id && (s.data e &&& 1 <<< m) != 0

/-- The loop that advances `_first_unmarked_element`, MK 54-57. -/
def Cfg.advance (c : Cfg) (s : State) (m : Nat) : Nat → Nat → Nat
  | 0, i => i
  | fuel + 1, i => if i < s.size ∧ c.get s i m = true then c.advance s m fuel (i + 1) else i

/-- `set`, MK 44-59; `none`: assertion violated. -/
def Cfg.set? (c : Cfg) (track : Bool) (s : State) (e m : Nat) : Option State :=
  if c.K ≤ m ∨ s.size ≤ e then none
  else
    let v := if (s.data e &&& c.mask) == s.id then s.data e ||| 1 <<< m else s.id ||| 1 <<< m
    let s := { s with data := upd s.data e (v % 2 ^ c.w) }
    some (if track then { s with first := upd s.first m (c.advance s m s.size (s.first m)) } else s)

/-- `reset`, MK 82-98. -/
def Cfg.reset (c : Cfg) (s : State) : State :=
  let id := ((s.id ||| c.ones) % 2 ^ c.w + 1) % 2 ^ c.w
  if (id ||| c.ones) == 2 ^ c.w - 1 then
    { s with id := 0, first := fun _ => 0, data := fun _ => 0 }
  else { s with id := id, first := fun _ => 0 }

/-- `resize`, MK 100-103: new elements are zero. -/
def State.resize (s : State) (cap : Nat) : State :=
  { s with size := cap, data := fun e => if e < min s.size cap then s.data e else 0 }

/-- One operation. -/
def Cfg.op (c : Cfg) (s : State) : Op → Option State
  | .set track e m => c.set? track s e m
  | .reset => some (c.reset s)
  | .resize cap => some (s.resize cap)

/-- A history of operations. -/
def Cfg.run (c : Cfg) : State → List Op → Option State
  | s, [] => some s
  | s, op :: ops => (c.op s op).bind fun s => c.run s ops

end Verif.Marker
