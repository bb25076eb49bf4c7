import Verif.Util

/-!
# Model of graph validation

Source: `validate_graph`, `kaminpar-shm/datastructures/csr_graph.cc` (CC) 246-337.  Arrays are lists; reading
an array outside of its bounds makes the result `none`.
-/

namespace Verif.Validate

/-- The outcome of a loop body: continue, or return `false`. -/
inductive Out
  | go
  | reject
deriving DecidableEq

/-- Runs the body for the list of indices until it rejects; `none` is undefined behaviour. -/
def forEach {α : Type} (f : α → Option Out) : List α → Option Out
  | [] => some .go
  | x :: l => match f x with
    | none => none
    | some .reject => some .reject
    | some .go => forEach f l

/-- CC 272-277. -/
def checkMonotone (xadj : List Nat) (u : Nat) : Option Out := do
  let a ← xadj[u]?
  let b ← xadj[u + 1]?
  some (if a > b then .reject else .go)

/-- The result of the search for the reverse edge, CC 298-326. -/
inductive Rev
  | notFound
  | found
  | reject
deriving DecidableEq

/-- The loop over `e_prime`, CC 299-326. -/
def findReverse (n m : Nat) (adjncy : List Nat) (adjwgt : List Int) (u e : Nat) : List Nat → Option Rev
  | [] => some .notFound
  | e' :: l =>
    if e' ≥ m then some .reject
    else match adjncy[e']? with
      | none => none
      | some u' =>
        if u' ≥ n then some .reject
        else if u ≠ u' then findReverse n m adjncy adjwgt u e l
        else if adjwgt ≠ [] then
          match adjwgt[e]?, adjwgt[e']? with
          | some a, some b => if a ≠ b then some .reject else some .found
          | _, _ => none
        else some .found

/-- The body of the loop over the edges, CC 281-332. -/
def checkEdge (n m : Nat) (xadj adjncy : List Nat) (adjwgt : List Int) (checkUndirected : Bool) (numPseudo : Nat)
    (u e : Nat) : Option Out :=
  if e ≥ m then some .reject
  else match adjncy[e]? with
    | none => none
    | some v =>
      if v ≥ n then some .reject
      else if u = v then some .reject
      else match xadj[v]?, xadj[v + 1]? with
        | some a, some b =>
          match findReverse n m adjncy adjwgt u e (List.range' a (b - a)) with
          | none => none
          | some .reject => some .reject
          | some .found => some .go
          | some .notFound => if checkUndirected && decide (v < n - numPseudo) then some .reject else some .go
        | _, _ => none

/-- The body of the loop over the nodes, CC 280-333. -/
def checkNode (n m : Nat) (xadj adjncy : List Nat) (adjwgt : List Int) (checkUndirected : Bool) (numPseudo : Nat)
    (u : Nat) : Option Out :=
  match xadj[u]?, xadj[u + 1]? with
  | some a, some b => forEach (checkEdge n m xadj adjncy adjwgt checkUndirected numPseudo u) (List.range' a (b - a))
  | _, _ => none

/-- `validate_graph`, CC 246-337. -/
def validate (n : Nat) (xadj adjncy : List Nat) (vwgt adjwgt : List Int) (checkUndirected : Bool) (numPseudo : Nat) :
    Option Bool :=
  if xadj.length < n + 1 then some false
  else if vwgt ≠ [] ∧ vwgt.length < n then some false
  else match xadj[n]? with
    | none => none
    | some m =>
      if adjwgt ≠ [] ∧ adjwgt.length < m then some false
      else match forEach (checkMonotone xadj) (List.range n) with
        | none => none
        | some .reject => some false
        | some .go =>
          match forEach (checkNode n m xadj adjncy adjwgt checkUndirected numPseudo) (List.range n) with
          | none => none
          | some .reject => some false
          | some .go => some true

end Verif.Validate
