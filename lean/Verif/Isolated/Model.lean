import Verif.Sum

/-!
# Model of the assignment of isolated nodes

Source: `kaminpar-shm/graphutils/permutator.cc` (PC) 241-270.
-/

namespace Verif.Isolated

/-- The inner `while` loop, PC 262-264; at most `k` rounds (the first argument). -/
def advance (k : Nat) (bw mx : Nat → Int) (wu : Int) : Nat → Nat → Nat
  | 0, b => b
  | fuel + 1, b => if b + 1 < k ∧ bw b + wu > mx b then advance k bw mx wu fuel (b + 1) else b

structure State where
  part : Nat → Nat
  bw : Nat → Int
  b : Nat

/-- One iteration of the outer loop, PC 262-266. -/
def step (k : Nat) (mx w : Nat → Int) (s : State) (u : Nat) : State :=
  let b := advance k s.bw mx (w u) k s.b
  ⟨upd s.part u b, upd s.bw b (s.bw b + w u), b⟩

/-- `assign_isolated_nodes`, PC 241-270: `part` and `bw` are the partition of the first `n - num` nodes and its
block weights (`noinit` are the initial values of the new array). -/
def assign (n num k : Nat) (mx w : Nat → Int) (part : Nat → Nat) (bw : Nat → Int) (noinit : Nat → Nat) : State :=
  let nonIsolated := n - num
  let copy := (List.range nonIsolated).foldl (fun p u => upd p u (part u)) noinit
  (List.range' nonIsolated num).foldl (step k mx w) ⟨copy, bw, 0⟩

end Verif.Isolated
