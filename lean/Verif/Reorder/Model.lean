import Verif.Compression.Model
import Verif.CsrGraph.Model
import Mathlib.Data.List.Sort

/-!
# Model of the edge reordering

Source: `kaminpar-shm/graphutils/permutator.cc` (PC) 98-239.

Pointers are positions in the array of edges or of edge weights; the two arrays are functions of the position.  Without edge weights
the pointer to the weights is null and only used in additions (PC 136, 164, 172, 208).
-/

namespace Verif.Reorder
open Verif.Compression (Cfg highDegreeThreshold partLength intervalThreshold)
open Verif.CsrGraph (G)

/-- The two arrays that are reordered. -/
structure Arrs where
  edges : Nat → Nat
  weights : Nat → Int

/-- `std::swap(a[i], a[j])`. -/
def swap {α : Type} (a : Nat → α) (i j : Nat) : Nat → α := upd (upd a i (a j)) j (a i)

/-- The inner loop of `apply_permutation`, PC 104-110, at most `fuel` times (`none`: it takes longer): the arrays, the indices and
`current` afterwards.  `u`, `v` are the pointers to edges and weights. -/
def cycle? (u v i : Nat) : Nat → Arrs → (Nat → Nat) → Nat → Option (Arrs × (Nat → Nat) × Nat)
  | 0, A, ind, current => if i ≠ ind current then none else some (A, ind, current)
  | fuel + 1, A, ind, current =>
    if i ≠ ind current then
      let next := ind current
      cycle? u v i fuel ⟨swap A.edges (u + current) (u + next), swap A.weights (v + current) (v + next)⟩
        (upd ind current current) next
    else some (A, ind, current)

/-- `apply_permutation`, PC 98-114. -/
def applyPermutation? (u v size : Nat) (A : Arrs) (ind : Nat → Nat) : Option (Arrs × (Nat → Nat)) :=
  (List.range size).foldlM (fun (s : Arrs × (Nat → Nat)) i => do
    let (A, ind, current) ← cycle? u v i size s.1 s.2 i
    some (A, upd ind current current)) (A, ind)

/-- `std::rotate(reverse_iterator(e), reverse_iterator(e) + len, reverse_iterator(b))`: the last `len` elements of `[b, e)` are moved
to its front.  `none` if there are fewer than `len` elements. -/
def rotate? {α : Type} (a : Nat → α) (b e len : Nat) : Option (Nat → α) :=
  if b + len ≤ e then
    some fun p =>
      if b ≤ p ∧ p < b + len then a (p + (e - len - b))
      else if b + len ≤ p ∧ p < e then a (p - len)
      else a p
  else none

/-- The variables of the loop in `permutate`, PC 131-136. -/
structure PS where
  A : Arrs
  len : Nat
  prev : Nat
  rot : Nat
  rotW : Nat
  endW : Nat

/-- One iteration, PC 138-173; `e` is `edges_end`. -/
def permStep? (hasW : Bool) (e : Nat) (s : PS) (iter : Nat) : Option PS := do
  let a := s.A.edges iter
  let s ←
    if (s.prev + 1) % 2 ^ 32 = a then
      let len := s.len + 1
      if iter + 1 = e ∨ s.A.edges (iter + 1) ≠ (a + 1) % 2 ^ 32 then
        if len ≥ intervalThreshold then do
          let edges ← rotate? s.A.edges s.rot (iter + 1) len
          let weights ← if hasW then rotate? s.A.weights s.rotW (s.endW + 1) len else some s.A.weights
          some { s with A := ⟨edges, weights⟩, rot := s.rot + len, rotW := s.rotW + len, len := 1 }
        else some { s with len := 1 }
      else some { s with len := len }
    else some s
  some { s with prev := a, endW := s.endW + 1 }

/-- `permutate(edges_begin, edges_end, edge_weights)`, PC 123-175. -/
def permutate? (c : Cfg) (hasW : Bool) (b e w : Nat) (A : Arrs) : Option Arrs :=
  if c.interval then
    if e - b < 2 then some A
    else
      ((List.range' (b + 1) (e - b - 1)).foldlM (permStep? hasW e)
        { A := A, len := 1, prev := A.edges b, rot := b, rotW := w, endW := w + 1 }).map PS.A
  else some A

/-- `l` written to the positions from `b`. -/
def write {α : Type} (a : Nat → α) (b : Nat) (l : List α) : Nat → α :=
  fun p => if b ≤ p then (l[p - b]?).getD (a p) else a p

/-- `std::sort(edges_begin, edges_end)`, PC 194: for integers there is only one sorted order. -/
def sortEdges (a : Nat → Nat) (b d : Nat) : Nat → Nat :=
  write a b (((List.range' b d).map a).insertionSort (· ≤ ·))

/-- `sort_by_compression`, PC 116-218.  `sortIdx key d` is the result of sorting the indices below `d` by their keys with
`std::sort`, PC 188-190. -/
def sortByCompression? (c : Cfg) (sortIdx : (Nat → Nat) → Nat → List Nat) (hasW : Bool) (b e w : Nat) (A : Arrs) : Option Arrs := do
  let degree := e - b
  let A ←
    if hasW then
      let permutation := sortIdx (fun i => A.edges (b + i)) degree
      (applyPermutation? b w degree A fun i => permutation.getD i 0).map Prod.fst
    else some { A with edges := sortEdges A.edges b degree }
  if degree ≥ highDegreeThreshold then
    let partCount := if degree % partLength = 0 then degree / partLength else degree / partLength + 1
    let lastPartLength := if degree % partLength = 0 then partLength else degree % partLength
    (List.range partCount).foldlM (fun A i =>
      let partEdges := b + i * partLength
      permutate? c hasW partEdges (partEdges + if i + 1 = partCount then lastPartLength else partLength) (w + i * partLength) A) A
  else permutate? c hasW b e w A

/-- `reorder_edges_by_compression`, PC 220-239.  The parallel loop handles the nodes in the order `order`: different nodes use different
parts of the arrays. -/
def reorder? (c : Cfg) (sortIdx : (Nat → Nat) → Nat → List Nat) (hasW : Bool) (nodes : Nat → Nat) (order : List Nat) (A : Arrs) :
    Option Arrs :=
  order.foldlM (fun A u => sortByCompression? c sortIdx hasW (nodes u) (nodes (u + 1)) (nodes u) A) A

/-- `reorder_edges_by_compression` for a graph: the new contents of its arrays of edges and edge weights. -/
def reorderGraph? (c : Cfg) (sortIdx : (Nat → Nat) → Nat → List Nat) (order : List Nat) (g : G) : Option G :=
  (reorder? c sortIdx g.isEdgeWeighted g.nodes.data order ⟨g.edges.data, g.ew.data⟩).map fun A =>
    { g with edges := { g.edges with data := A.edges }, ew := { g.ew with data := A.weights } }

end Verif.Reorder
