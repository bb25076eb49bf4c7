import Verif.NodeBalancer.Buckets

/-!
# What the proposals of the node balancer should be
-/

namespace Verif.NodeBalancer.Sel

/-- The weight of some nodes. -/
def weightOf (l : List Elem) : Int := (l.map Elem.weight).sum

/-- The weight of the nodes of block `b` in the queues of all processes. -/
def offered (N : Nat) (elems : Nat → Nat → List Elem) (b : Nat) : Int := ((List.range N).map fun p => weightOf (elems p b)).sum

/-- The weight of the nodes of block `b` that all processes propose to move. -/
def proposed (out : List (List (List Elem))) (b : Nat) : Int := (out.map fun l => weightOf (l.getD b [])).sum

/-- `pick` finds a minimum. -/
def PicksMin (pick : List Elem → Nat) : Prop := ∀ l, l ≠ [] → ∃ m, l[pick l]? = some m ∧ ∀ x, x ∈ l → m.gain ≤ x.gain

/-- The bucket of a node. -/
def bucketOf (B : Conf) (e : Elem) : Nat := (B.bucket? e.gain).getD 0

/-- The weight of the nodes of block `b` in the buckets before `i`, in the queues of all processes. -/
def better (B : Conf) (N : Nat) (elems : Nat → Nat → List Elem) (b i : Nat) : Int :=
  ((List.range N).map fun p => weightOf ((elems p b).filter fun e => decide (bucketOf B e < i))).sum

/-- The nodes in the queues have buckets, and their weights are not negative. -/
def Valid (B : Conf) (N k : Nat) (elems : Nat → Nat → List Elem) : Prop :=
  ∀ p, p < N → ∀ b, b < k → ∀ e, e ∈ elems p b → (B.bucket? e.gain).isSome = true ∧ 0 ≤ e.weight

end Verif.NodeBalancer.Sel
