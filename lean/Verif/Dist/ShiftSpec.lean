import Verif.Dist.Shift
import Verif.Dist.ContractSpec

/-!
# The redistribution of clusters: what should move
-/

namespace Verif.Dist

/-- The sorting algorithm sorts the processes by their numbers of coarse nodes. -/
def Sorts (sort : Nat → List (Nat × Nat) → List (Nat × Nat)) : Prop := ∀ i l, (sort i l).Perm l ∧ (sort i l).Pairwise fun a b => a.2 ≤ b.2

/-- Process `q` gives `out q` coarse nodes away and gets `inc q`: all coarse nodes above the limit `lim` leave, what leaves one process
arrives at another one, and no process gets more coarse nodes than it has nodes.  If there is room for all coarse nodes, where a process
has at most the limit and at most its nodes, then each process obeys the limit afterwards. -/
structure Plan (dist cdist : List Nat) (lim : Nat) (out inc : Nat → Nat) : Prop where
  out_eq : ∀ q, q < procs dist → out q = localN cdist q - lim
  fits : ∀ q, q < procs dist → localN cdist q + inc q ≤ localN dist q
  total : ((List.range (procs dist)).map out).sum = ((List.range (procs dist)).map inc).sum
  balanced : globalN cdist ≤ ((List.range (procs dist)).map fun q => min lim (localN dist q)).sum → ∀ q, q < procs dist → localN cdist q - out q + inc q ≤ lim

/-- `P` gives the clusters the numbers `0, 1, …, globalN cdist - 1`. -/
structure Renumbers (dist : List Nat) (C : Nat → Nat) (cdist : List Nat) (P : Nat → Nat) : Prop where
  procs_eq : procs cdist = procs dist
  range : ∀ a, a < globalN dist → P a < globalN cdist
  same : ∀ a b, a < globalN dist → b < globalN dist → (P a = P b ↔ C a = C b)
  surjective : ∀ x, x < globalN cdist → ∃ a, a < globalN dist ∧ P a = x

/-- What is assumed about floating point numbers and sorting: the algorithms sort, the limit grows from call to call, and more calls are
allowed than any process has nodes. -/
structure Limits.Ok (dist : List Nat) (L : Limits) : Prop where
  sorts : ∀ p, p < procs dist → Sorts (L.sort p)
  grows : ∀ limit rem, 0 < rem → limit < L.next limit rem
  calls : ∀ q, q < procs dist → localN dist q < L.calls

end Verif.Dist
