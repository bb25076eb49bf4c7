import Verif.Util

/-!
# Model of the bounded queue

Source: `kaminpar-common/datastructures/queue.h` (QU).
-/

namespace Verif.Queue

/-- `_data`, `_head`, `_tail`, QU 132-134. -/
structure Queue (α : Type) where
  cap : Nat
  data : Nat → α
  head : Nat
  tail : Nat

variable {α : Type}

/-- The constructor, QU 35-37: `_data` holds `zero`. -/
def Queue.new (zero : α) (cap : Nat) : Queue α :=
  { cap := cap, data := fun _ => zero, head := 0, tail := 0 }

/-- `empty`, QU 84-86. -/
def Queue.empty (q : Queue α) : Bool := q.head == q.tail

/-- `size`, QU 88-90. -/
def Queue.size (q : Queue α) : Nat := q.tail - q.head

/-- `head`, QU 51-54. -/
def Queue.head? (q : Queue α) : Option α := if q.empty then none else some (q.data q.head)

/-- `tail`, QU 46-49; `none` also for a read behind the end of the array. -/
def Queue.tail? (q : Queue α) : Option α :=
  if q.empty ∨ q.cap ≤ q.tail then none else some (q.data q.tail)

/-- `operator[]`, QU 56-64: the assertion compares with the capacity, not with the size. -/
def Queue.at? (q : Queue α) (pos : Nat) : Option α :=
  if q.head + pos < q.cap then some (q.data (q.head + pos)) else none

/-- `begin()`..`end()`, QU 67-81. -/
def Queue.toList (q : Queue α) : List α := (List.range (q.tail - q.head)).map fun i => q.data (q.head + i)

/-- `pop_head`, QU 103-106. -/
def Queue.popHead? (q : Queue α) : Option (Queue α) :=
  if q.head < q.tail then some { q with head := q.head + 1 } else none

/-- `push_head`, QU 108-111. -/
def Queue.pushHead? (q : Queue α) (x : α) : Option (Queue α) :=
  if 0 < q.head then some { q with head := q.head - 1, data := upd q.data (q.head - 1) x } else none

/-- `push_tail`, QU 113-116. -/
def Queue.pushTail? (q : Queue α) (x : α) : Option (Queue α) :=
  if q.tail < q.cap then some { q with tail := q.tail + 1, data := upd q.data q.tail x } else none

/-- `pop_tail`, QU 118-121. -/
def Queue.popTail? (q : Queue α) : Option (Queue α) :=
  if q.head < q.tail then some { q with tail := q.tail - 1 } else none

/-- `clear`, QU 123-125. -/
def Queue.clear (q : Queue α) : Queue α := { q with head := 0, tail := 0 }

end Verif.Queue
