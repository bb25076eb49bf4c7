import Mathlib.Data.List.Sort
import Verif.Dist.Contract

/-!
# Model of the redistribution of clusters over the processes

Source: `kaminpar-dist/coarsening/contraction/global_cluster_contraction.cc` (GCC).

If some process would get too many coarse nodes, clusters are renamed such that other processes own them, and the contraction starts
again.  Floating point numbers only appear as the limits on the number of coarse nodes: the first limit and the function that computes
the next one are parameters.  A difference of unsigned numbers that is negative is `none`, and so is a division by zero.  Casts to 32-bit
numbers of nodes of one process keep them, because the numbers of nodes are below 2³¹ wherever the model is used.
-/

namespace Verif.Dist
open Verif.Math

/-- The loop over the heap, GCC 951-963.  The arguments are `inc_to`, `current_overload`, `num_pes`, `inc_from` and the keys of the heap
in ascending order; the last four are returned.  The heap is the one of C09; equal keys are the same here. -/
def drain? (incTo : Nat) : Nat → Nat → Nat → List Nat → Option (Nat × Nat × Nat × List Nat)
  | over, num, fr, [] => some (over, num, fr, [])
  | over, num, fr, c :: h =>
    if c < incTo then
      if fr ≤ c ∧ 0 < num then
        if num * (c - fr) < over then drain? incTo (over - num * (c - fr)) (num - 1) c h else some (over, num, fr, h)
      else none
    else some (over, num, fr, c :: h)

/-- The loop over the processes, GCC 940-975, sorted by the numbers of their coarse nodes: `min_load`, `plus_ones` and
`current_overload` at the end.  `caps` are the numbers of nodes of the processes; the other arguments are `current_overload`, `num_pes`,
the heap and the remaining processes. -/
def minLoad? (caps : Nat → Nat) : Nat → Nat → List Nat → List (Nat × Nat) → Option (Nat × Nat × Nat)
  | over, num, heap, a :: b :: rest =>
    (drain? b.2 over (num + 1) a.2 (heap.orderedInsert (· ≤ ·) (caps a.1))).bind fun s =>
      if s.2.2.1 ≤ b.2 then
        if s.2.1 * (b.2 - s.2.2.1) < s.1 then minLoad? caps (s.1 - s.2.1 * (b.2 - s.2.2.1)) s.2.1 s.2.2.2 (b :: rest)
        else if s.2.1 = 0 then none else some (s.2.2.1 + s.1 / s.2.1, s.1 % s.2.1, 0)
      else none
  | over, _, _, _ => some (0, 0, over)

/-- The loop that determines underloaded processes, GCC 993-1012; the list has the numbers of nodes and of coarse nodes of the processes,
and the number is `nth_underloaded`. -/
def underloads? (minLoad plus : Nat) : Nat → List (Nat × Nat) → Option (List Nat)
  | _, [] => some []
  | nth, x :: l =>
    if x.2 ≤ minLoad then
      if x.2 ≤ x.1 then
        if nth < plus ∧ min (minLoad - x.2) (x.1 - x.2) < x.1 - x.2 then
          (underloads? minLoad plus (nth + 1) l).map ((min (minLoad - x.2) (x.1 - x.2) + 1) :: ·)
        else (underloads? minLoad plus nth l).map ((min (minLoad - x.2) (x.1 - x.2)) :: ·)
      else none
    else (underloads? minLoad plus nth l).map (0 :: ·)

/-- `distribution[pe + 1] - distribution[pe]`. -/
def sizeOf (dist : List Nat) (q : Nat) : Nat := dist.getD (q + 1) 0 - dist.getD q 0

/-- The overload of process `q`, GCC 918-925. -/
def overload (limit : Nat) (cdist : List Nat) (q : Nat) : Nat := if limit < sizeOf cdist q then sizeOf cdist q - limit else 0

/-- `compute_assignment_shifts`, GCC 895-1034: the prefix sums of overloads and underloads.  The first number is the number of calls that
may still follow, the second one `max_cnode_count` (GCC 916); `next` gives the one of the following call (GCC 977-991) from it and
`current_overload`, unless the average number of coarse nodes is 0, which divides by zero.  `sort` is the result of the sorting algorithm
in each call. -/
def shifts? (next : Nat → Nat → Nat) (sort : Nat → List (Nat × Nat) → List (Nat × Nat)) (dist cdist : List Nat) :
    Nat → Nat → Option (List Nat × List Nat)
  | 0, _ => none
  | fuel + 1, limit =>
    (minLoad? (sizeOf dist) ((List.range (cdist.length - 1)).map (overload limit cdist)).sum 0 []
        (sort fuel ((List.range (cdist.length - 1)).map fun q => (q, sizeOf cdist q)))).bind fun r =>
      if 0 < r.2.2 then
        if cdist.getLastD 0 / (cdist.length - 1) = 0 then none else shifts? next sort dist cdist fuel (next limit r.2.2)
      else (underloads? r.1 r.2.1 0 ((List.range (cdist.length - 1)).map fun q => (sizeOf dist q, sizeOf cdist q))).map fun us =>
        (edgeDistribution ((List.range (cdist.length - 1)).map (overload limit cdist)), edgeDistribution us)

/-- The new place of the coarse node at position `pos` of all coarse nodes that move, GCC 866-874 and 882-890: local ID and process. -/
def place? (cdist under : List Nat) (pos : Nat) : Option (Nat × Nat) :=
  cdist[findInDistribution pos under]?.bind fun c0 => cdist[findInDistribution pos under + 1]?.bind fun c1 =>
    under[findInDistribution pos under]?.bind fun u0 =>
      if c0 ≤ c1 ∧ u0 ≤ pos then some (c1 - c0 + (pos - u0), findInDistribution pos under) else none

/-- `remap_gcnode`, GCC 843-893: either the first or the last coarse nodes of the process `q` move. -/
def remap? (first : Bool) (cdist over under : List Nat) (x q : Nat) : Option (Nat × Nat) :=
  cdist[q]?.bind fun c0 => cdist[q + 1]?.bind fun c1 => over[q]?.bind fun o0 => over[q + 1]?.bind fun o1 =>
    if c0 ≤ x ∧ o0 ≤ o1 ∧ o1 - o0 ≤ c1 - c0 then
      if first then if o1 - o0 ≤ x - c0 then some (x - c0 - (o1 - o0), q) else place? cdist under (o0 + (x - c0))
      else if x - c0 < c1 - c0 - (o1 - o0) then some (x - c0, q) else place? cdist under (o0 + (x - c0) - (c1 - c0 - (o1 - o0)))
    else none

/-- The new cluster of one node, GCC 1059-1092; `lc` and `t` are the tables for clusters of this process and of other ones. -/
def relabel? (first : Bool) (g : DGraph) (lab lc cdist : List Nat) (t : List (Nat × Nat)) (over under : List Nat) (u : Nat) : Option Nat :=
  lab[u]?.bind fun c => (gcnode? g lc cdist t c).bind fun x => (g.isOwnedGlobal? c).bind fun owned =>
    (remap? first cdist over under x (if owned then g.rank else g.findOwner c)).bind fun r => g.dist[r.2]?.map (· + r.1)

/-- What floating point numbers and sorting algorithms decide about the redistribution: the first limit, the next limits, a bound on the
number of calls and the orders of the processes. -/
structure Limits where
  limit : Nat
  next : Nat → Nat → Nat
  calls : Nat
  sort : Nat → Nat → List (Nat × Nat) → List (Nat × Nat)

section
variable (S : Nat → Orders) (N : Nat) (g : Nat → DGraph) (lab : Nat → List Nat) (L : Limits) (first : Bool)

/-- The new clusters of the nodes of process `p`, GCC 1048-1093. -/
def newLabels? (p : Nat) : Option (List Nat) :=
  (coarseDist? S N g lab).bind fun cdist => (mapping? S N g lab p).bind fun lc => (foreignMapping? S N g lab p).bind fun t =>
    (shifts? L.next (L.sort p) (g p).dist cdist L.calls L.limit).bind fun s =>
      (List.range (g p).n).mapM (relabel? first (g p) (lab p) lc cdist t s.1 s.2)

/-- `rebalance_cluster_placement` on process `me`, GCC 1036-1110: the new clusters of nodes and ghost nodes. -/
def redistribute? (z : Nat × Nat) (ex : Nat → Execution) (shuffle : List (Nat × Nat) → List (Nat × Nat)) (me : Nat) : Option (List Nat) :=
  ((List.range N).mapM (newLabels? S N g lab L first)).bind fun l =>
    (syncGhosts? N z g ex (fun p u => (l.getD p []).getD u 0) (g me).totalN shuffle me).map fun arr => (List.range (g me).totalN).map arr

/-- The clusters that `contract_clustering` contracts, GCC 1239-1263; `exceeds` tells whether the imbalance of a distribution exceeds the
maximum imbalance. -/
def finalLabels? (exceeds : List Nat → Bool) (z : Nat × Nat) (ex : Nat → Execution) (shuffle : List (Nat × Nat) → List (Nat × Nat)) (me : Nat) :
    Option (List Nat) :=
  (coarseDist? S N g lab).bind fun cdist =>
    if exceeds cdist then redistribute? S N g lab L first z ex shuffle me else some (lab me)

end

end Verif.Dist
