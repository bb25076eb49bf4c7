import Verif.Util

/-!
# Specification: what a map is

The meaning of a history of operations, without any reference to how the maps are implemented.
-/

namespace Verif.Maps

/-- Operations on a map with integer values. -/
inductive Op
  /-- `map[k] = v` -/
  | set (k : Nat) (v : Int)
  /-- `map[k] += d` -/
  | inc (k : Nat) (d : Int)
  /-- insert `v` for `k` unless `k` is already there -/
  | insert (k : Nat) (v : Int)
  | remove (k : Nat)
  | clear
  deriving DecidableEq, Repr

/-- The content of a map: `none` for absent keys. -/
abbrev Content := Nat → Option Int

/-- Effect of one operation; a key that is accessed for the first time starts with `init`. -/
def Content.step (init : Int) (m : Content) : Op → Content
  | .set k v => upd m k (some v)
  | .inc k d => upd m k (some ((m k).getD init + d))
  | .insert k v => if (m k).isSome then m else upd m k (some v)
  | .remove k => upd m k none
  | .clear => fun _ => none

/-- The content after a history of operations on an empty map. -/
def content (init : Int) (ops : List Op) : Content := ops.foldl (Content.step init) fun _ => none

/-- The keys mentioned in a history. -/
def Op.key? : Op → Option Nat
  | .set k _ | .inc k _ | .insert k _ | .remove k => some k
  | .clear => none

/-- `entries` lists the content `m`: each key exactly once, with its value. -/
def Lists (entries : List (Nat × Int)) (m : Content) : Prop :=
  (entries.map Prod.fst).Nodup ∧ ∀ k v, (k, v) ∈ entries ↔ m k = some v

/-- At most `n` keys are in `m`. -/
def AtMost (n : Nat) (m : Content) : Prop :=
  ∃ keys : List Nat, keys.length ≤ n ∧ ∀ k, m k ≠ none → k ∈ keys

end Verif.Maps
