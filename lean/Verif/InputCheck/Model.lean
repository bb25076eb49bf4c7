/-!
# The validator for input graphs (C63)

`IV` = `apps/io/shm_input_validator.cc`.  A graph is given by its arrays: `nodes` (offsets) and `edges` (targets with
weights; the weight is 1 if there is no array of edge weights, IV 37-40).
-/

namespace Verif.InputCheck

/-- What the validator does: it returns, ends the program with an error message, or reads outside of an array. -/
inductive Outcome
  | accept
  | exit
  | undefined
deriving DecidableEq, Repr

/-- Comparison of `std::tuple<NodeID, EdgeWeight>`: lexicographic. -/
def lt (a b : Nat × Int) : Bool := a.1 < b.1 || (a.1 == b.1 && a.2 < b.2)

/-- The loop of `std::lower_bound` on `s[first, first + len)`, for at most `fuel` iterations (each of them makes `len`
smaller). -/
def lowerBoundLoop (s : Nat → Nat × Int) (x : Nat × Int) : Nat → Nat → Nat → Nat
  | 0, first, _ => first
  | fuel + 1, first, len =>
    if len = 0 then first
    else if lt (s (first + len / 2)) x then lowerBoundLoop s x fuel (first + len / 2 + 1) (len - len / 2 - 1)
    else lowerBoundLoop s x fuel first (len / 2)

/-- `binary_find`, IV 22-26, on `s[begin, end)`: the position, or `end`. -/
def binaryFind (s : Nat → Nat × Int) (b e : Nat) (x : Nat × Int) : Nat :=
  let i := lowerBoundLoop s x (e - b) b (e - b)
  if i ≠ e ∧ lt x (s i) = false then i else e

/-- IV 51-57: the check for multiple edges of node `u`; it compares neighbours in the order of the input. -/
def multiEdge (nodes : Nat → Nat) (edges : Nat → Nat × Int) (u : Nat) : Bool :=
  (List.range' (nodes u + 1) (nodes (u + 1) - (nodes u + 1))).any fun e => (edges (e - 1)).1 == (edges e).1

/-- IV 63-75: the check of one edge of node `u`, for `n` nodes.  `nodes[v + 1]` is outside of the array for `v ≥ n`. -/
def checkEdge (n : Nat) (nodes : Nat → Nat) (sorted : Nat → Nat × Int) (u e : Nat) : Outcome :=
  let vw := sorted e
  if n ≤ vw.1 then .undefined
  else if binaryFind sorted (nodes vw.1) (nodes (vw.1 + 1)) (u, vw.2) = nodes (vw.1 + 1) then .exit
  else .accept

/-- A sequence of checks: it ends with the first one that does not accept. -/
def first : List Outcome → Outcome
  | [] => .accept
  | .accept :: l => first l
  | o :: _ => o

/-- Checks that run in parallel: undefined behaviour of one of them cannot be prevented by the others. -/
def parallel (l : List Outcome) : Outcome :=
  if .undefined ∈ l then .undefined else if .exit ∈ l then .exit else .accept

/-- IV 62-76. -/
def checkNode (n : Nat) (nodes : Nat → Nat) (sorted : Nat → Nat × Int) (u : Nat) : Outcome :=
  first ((List.range' (nodes u) (nodes (u + 1) - nodes u)).map (checkEdge n nodes sorted u))

/-- `validate_undirected_graph`, IV 28-77.  `sorted` is the array after the first parallel loop, see `Sorted`. -/
def validate (n : Nat) (nodes : Nat → Nat) (edges sorted : Nat → Nat × Int) : Outcome :=
  if (List.range n).any (multiEdge nodes edges) then .exit
  else parallel ((List.range n).map (checkNode n nodes sorted))

/-- The result of the `std::sort` calls of IV 45-49 (one per node, IV 44): the edges of each node, ordered by their
targets; the order of edges with the same target is not specified. -/
structure Sorted (n : Nat) (nodes : Nat → Nat) (edges sorted : Nat → Nat × Int) : Prop where
  perm : ∀ u, u < n → ((List.range' (nodes u) (nodes (u + 1) - nodes u)).map sorted).Perm
    ((List.range' (nodes u) (nodes (u + 1) - nodes u)).map edges)
  order : ∀ u, u < n → ((List.range' (nodes u) (nodes (u + 1) - nodes u)).map sorted).Pairwise fun a b => a.1 ≤ b.1

end Verif.InputCheck
