import Mathlib.Data.Nat.Notation

/-!
# Specification: METIS graph files

After the format description in the METIS manual: comment lines start with `%`; the first other line holds the
number of nodes, the number of undirected edges and an optional format code; then there is one line per node with
its weight (format code `?1?`), and the 1-based IDs of its neighbours, each followed by the weight of the edge
(format code `??1`).  Fields are decimal numbers separated by spaces.

Nothing here refers to the model of the code.
-/

namespace Verif.Files

/-- What a graph file describes: for every node its weight and the list of its neighbours (0-based) with the
weights of the edges. -/
abbrev Desc := List (Nat × List (Nat × Nat))

/-- The number of directed edges. -/
def Desc.edges (d : Desc) : Nat := (d.map fun x => x.2.length).sum

/-- A decimal digit with its value. -/
inductive IsDigit : Nat → Char → Prop
  | d0 : IsDigit 0 '0'
  | d1 : IsDigit 1 '1'
  | d2 : IsDigit 2 '2'
  | d3 : IsDigit 3 '3'
  | d4 : IsDigit 4 '4'
  | d5 : IsDigit 5 '5'
  | d6 : IsDigit 6 '6'
  | d7 : IsDigit 7 '7'
  | d8 : IsDigit 8 '8'
  | d9 : IsDigit 9 '9'

/-- A decimal number with its value: one or more digits, the most significant first. -/
inductive IsNumeral : Nat → List Char → Prop
  | one {d : Nat} {c : Char} : IsDigit d c → IsNumeral d [c]
  | more {x d : Nat} {s : List Char} {c : Char} : IsNumeral x s → IsDigit d c → IsNumeral (10 * x + d) (s ++ [c])

/-- Any number of spaces. -/
def IsBlank (s : List Char) : Prop := ∀ c ∈ s, c = ' '

/-- Numbers separated by spaces, possibly followed by spaces. -/
inductive IsFields : List Nat → List Char → Prop
  | nil : IsFields [] []
  | cons {x : Nat} {xs : List Nat} {num sp rest : List Char} : IsNumeral x num → IsBlank sp →
      (xs ≠ [] → sp ≠ []) → IsFields xs rest → IsFields (x :: xs) (num ++ sp ++ rest)

/-- Any number of comment lines; a comment may be preceded by spaces. -/
inductive IsComments : List Char → Prop
  | nil : IsComments []
  | cons {sp body rest : List Char} : IsBlank sp → '\n' ∉ body → IsComments rest →
      IsComments (sp ++ '%' :: body ++ '\n' :: rest)

/-- A line with the given fields, without the line break; spaces and comment lines may precede it. -/
def IsLine (xs : List Nat) (s : List Char) : Prop :=
  ∃ com sp fields, s = com ++ sp ++ fields ∧ IsComments com ∧ IsBlank sp ∧ IsFields xs fields

/-- The fields of the line of a node. -/
def nodeFields (hasNw hasEw : Bool) (x : Nat × List (Nat × Nat)) : List Nat :=
  (if hasNw then [x.1] else []) ++ x.2.flatMap fun y => (y.1 + 1) :: if hasEw then [y.2] else []

/-- The lines of the nodes. -/
inductive IsBody (hasNw hasEw : Bool) : Desc → List Char → Prop
  | nil : IsBody hasNw hasEw [] []
  | cons {x : Nat × List (Nat × Nat)} {d : Desc} {s rest : List Char} : IsLine (nodeFields hasNw hasEw x) s →
      IsBody hasNw hasEw d rest → IsBody hasNw hasEw (x :: d) (s ++ '\n' :: rest)

/-- The fields of the header line: the format code may be missing if there are no weights. -/
def IsHeader (n m : Nat) (hasNw hasEw : Bool) (xs : List Nat) : Prop :=
  xs = [n, m, (if hasNw then 10 else 0) + if hasEw then 1 else 0] ∨ (hasNw = false ∧ hasEw = false ∧ xs = [n, m])

/-- `file` is a METIS file of the graph `d` with `m` undirected edges.  Either all lines end with a line break and
comment lines may follow, or the last line is the line of the last node and does not end with a line break. -/
def IsMetis (d : Desc) (m : Nat) (hasNw hasEw : Bool) (file : List Char) : Prop :=
  ∃ xs head body tail, file = head ++ '\n' :: (body ++ tail) ∧ IsHeader d.length m hasNw hasEw xs ∧
    IsLine xs head ∧
    ((IsBody hasNw hasEw d body ∧ IsComments tail) ∨
      ∃ d' x, d = d' ++ [x] ∧ IsBody hasNw hasEw d' body ∧ tail ≠ [] ∧ IsLine (nodeFields hasNw hasEw x) tail)

end Verif.Files
