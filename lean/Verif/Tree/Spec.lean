import Verif.Tree.Model

/-!
# Specification of the reduction
-/

namespace Verif.Tree
variable {α : Type}

/-- An expression over the buffers of the ranks. -/
inductive Expr where
  | leaf (rank : Nat)
  | node (l r : Expr)

/-- The ranks whose buffers occur, with multiplicity. -/
def Expr.leaves : Expr → List Nat
  | .leaf rank => [rank]
  | .node l r => l.leaves ++ r.leaves

/-- The value of an expression. -/
def Expr.eval (comb : α → α → α) (buf : Nat → α) : Expr → α
  | .leaf rank => buf rank
  | .node l r => comb (l.eval comb buf) (r.eval comb buf)

/-- All ranks have returned: rank 0 with `result`, the others with nothing; no message is left. -/
def Finished (N : Nat) (result : α) (s : St α) : Prop :=
  s.procs 0 = .done (some result) ∧ (∀ rank, 0 < rank → rank < N → s.procs rank = .done none) ∧ ∀ src dst, s.net src dst = []

end Verif.Tree
