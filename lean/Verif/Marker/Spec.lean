import Verif.Util

/-!
# Specification: a set of marked elements per marker
-/

namespace Verif.Marker

/-- `set element marker` with or without tracking, `reset`, `resize capacity`. -/
inductive Op
  | set (track : Bool) (e m : Nat)
  | reset
  | resize (cap : Nat)
  deriving DecidableEq, Repr

/-- Which elements are marked by which marker. -/
abbrev Marks := Nat → Nat → Bool

/-- Effect of an operation: `reset` unmarks everything, `resize` forgets the elements that do not
exist any more. -/
def Op.mark (s : Marks) : Op → Marks
  | .set _ e m => upd s e (upd (s e) m true)
  | .reset => fun _ _ => false
  | .resize cap => fun e m => s e m && decide (e < cap)

/-- What is marked after a history. -/
def marked (ops : List Op) : Marks := ops.foldl Op.mark fun _ _ => false

/-- The number of elements after a history on a marker with `cap` elements. -/
def sizeAfter (cap : Nat) (ops : List Op) : Nat :=
  ops.foldl (fun c op => match op with | .resize c' => c' | _ => c) cap

/-- All elements and markers are in range when they are used. -/
def InRange (K : Nat) : Nat → List Op → Prop
  | _, [] => True
  | cap, .set _ e m :: ops => e < cap ∧ m < K ∧ InRange K cap ops
  | cap, .reset :: ops => InRange K cap ops
  | _, .resize cap :: ops => InRange K cap ops

/-- `i` is the smallest of `cap` elements not marked by `m`, or `cap` if all are. -/
def FirstUnmarked (s : Marks) (cap m i : Nat) : Prop :=
  i ≤ cap ∧ (∀ e, e < i → s e m = true) ∧ (i < cap → s i m = false)

end Verif.Marker
