import Verif.Util

/-!
# Specification: a map of counters
-/

namespace Verif.CompactMap

/-- Operations on a map of counters. -/
inductive Op
  | inc (k v : Nat)
  | dec (k v : Nat)
  deriving DecidableEq, Repr

/-- Effect on the counters; a key with counter 0 is not in the map. -/
def Op.step (m : Nat → Nat) : Op → Nat → Nat
  | .inc k v => upd m k (m k + v)
  | .dec k v => upd m k (m k - v)

/-- The answer: has the operation added (`inc`) or removed (`dec`) a key? -/
def Op.answer (m : Nat → Nat) : Op → Bool
  | .inc k _ => decide (m k = 0)
  | .dec k v => decide (v = m k)

/-- The counters after a history. -/
def counters (ops : List Op) : Nat → Nat := ops.foldl Op.step fun _ => 0

/-- The answers to a history of operations. -/
def answers (m : Nat → Nat) : List Op → List Bool
  | [] => []
  | op :: ops => op.answer m :: answers (op.step m) ops

/-- At most `n` keys are in the map. -/
def LiveAtMost (n : Nat) (m : Nat → Nat) : Prop :=
  ∃ keys : List Nat, keys.length ≤ n ∧ ∀ k, m k ≠ 0 → k ∈ keys

/-- Preconditions: keys have `kb` bits, counters stay below `2^vb`, changes are positive and a
decrease does not exceed the counter. -/
def Op.allowed (kb vb : Nat) (m : Nat → Nat) : Op → Prop
  | .inc k v => k < 2 ^ kb ∧ 0 < v ∧ m k + v < 2 ^ vb
  | .dec k v => 0 < v ∧ v ≤ m k

instance (kb vb : Nat) (m : Nat → Nat) (op : Op) : Decidable (op.allowed kb vb m) := by
  cases op <;> unfold Op.allowed <;> infer_instance

/-- Every operation of the history is allowed and there are never more than `n` keys. -/
def Valid (kb vb n : Nat) : (Nat → Nat) → List Op → Prop
  | _, [] => True
  | m, op :: ops => op.allowed kb vb m ∧ LiveAtMost n (op.step m) ∧ Valid kb vb n (op.step m) ops

end Verif.CompactMap
