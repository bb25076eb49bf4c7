import Verif.Gains.Model

/-!
# Specification of the gain caches

The connection of a node `u` to a block `b` of a partition `p` is `g.conn u fun v => p v = b`, the total weight of
the edges of `u` to nodes in `b` (`Verif/Graph/Basic.lean`).
-/

namespace Verif.Gains

/-- The partition after the moves. -/
def applyMoves (part : Nat → Nat) (ms : List Move) : Nat → Nat :=
  ms.foldl (fun p m => upd p m.node m.to) part

/-- Every move starts at the block its node is in at that time and ends at an existing block. -/
def ValidMoves (n k : Nat) (part : Nat → Nat) : List Move → Prop
  | [] => True
  | m :: ms => m.node < n ∧ m.from = part m.node ∧ m.to < k ∧ ValidMoves n k (upd part m.node m.to) ms

instance ValidMoves.dec (n k : Nat) : ∀ (part : Nat → Nat) (ms : List Move), Decidable (ValidMoves n k part ms)
  | _, [] => isTrue trivial
  | part, m :: ms =>
    have := ValidMoves.dec n k (upd part m.node m.to) ms
    inferInstanceAs (Decidable (m.node < n ∧ m.from = part m.node ∧ m.to < k ∧ ValidMoves n k (upd part m.node m.to) ms))

/-- What `gains` should report for a node: every block except `from`, in order, with the connection or (if
`exact`) with the gain of moving there. -/
def gainsSpec (g : Graph) (p : Nat → Nat) (k : Nat) (exact : Bool) (u «from» : Nat) : List (Nat × Int) :=
  (List.range k).filterMap fun b =>
    if b = «from» then none
    else some (b, g.conn u (fun v => p v = b) - if exact then g.conn u (fun v => p v = «from») else 0)

end Verif.Gains
