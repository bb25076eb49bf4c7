import Verif.Dist.HEM
import Verif.Dist.KWay

/-!
# Heavy edge matching with label propagation as fallback

`kaminpar-dist/coarsening/clustering/hem/hem_lp_clusterer.cc` (HLP) and `hem_clusterer.cc` (HEM).
-/

namespace Verif.Dist

/-- The heavy edge matching clusterer as a clusterer, HEM 56-80: colouring, sorting and matching.  The schedule of the matching may depend on
the colours. -/
def hemClusterer (N : Nat) (cfg : HEMConfig) (S : Nat) (csch : Nat → Nat → ColorSchedule) (fuel : Nat) (order : Nat → List Nat)
    (sch : ColorOrder → Nat → HEMSchedule) : ClustererFn := fun g =>
  ((nodeColoring? N g S csch fuel).bind fun x => colorOrder? N g x.1 order).bind fun ord => hemCluster? N cfg g ord (sch ord)

/-- The number of nodes of a process whose cluster has another name, HLP 51-60.  The counters of the threads are added up. -/
def matchedNodes? (g : DGraph) (lab : List Nat) : Option Nat :=
  ((List.range g.n).mapM fun u => lab[u]?.bind fun c => (g.localToGlobal? u).map fun v => decide (c ≠ v)).map fun l => l.count true

/-- `compute_size_after_matching_contraction`, HLP 48-65, on process `p`: `MPI_Allreduce` adds up the numbers of all processes. -/
def sizeAfterMatching? (N : Nat) (g : Nat → DGraph) (lab : Nat → List Nat) (p : Nat) : Option Nat :=
  ((List.range N).mapM fun q => matchedNodes? (g q) (lab q)).bind fun l => (g p).dist.getLast?.map fun n => n - l.sum

/-- Process `p` switches to label propagation, HLP 39-41.  The quotient is compared exactly instead of with doubles; as `0.9` is rounded, the
comparison is the same for all numbers below `2^48`. -/
def fallsBack? (N : Nat) (g : Nat → DGraph) (lab : Nat → List Nat) (p : Nat) : Option Bool :=
  (sizeAfterMatching? N g lab p).bind fun size => (g p).dist.getLast?.map fun n => decide (9 * n < 10 * size)

/-- `HEMLPClusterer::cluster`, HLP 30-46; the state is `_fallback`, on all processes.  If only some of the processes switch to label
propagation, the others never join their communication: `none`. -/
def hemLP? (N : Nat) (hem lp : ClustererFn) (fallback : Bool) (g : Nat → DGraph) : Option (Bool × (Nat → List Nat)) :=
  if fallback = true then (lp g).map fun lab => (true, lab)
  else (hem g).bind fun lab => ((List.range N).mapM (fallsBack? N g lab)).bind fun l =>
    if (l.all fun b => !b) = true then some (false, lab)
    else if l.all id = true then (lp g).map fun lab => (true, lab)
    else none

end Verif.Dist
