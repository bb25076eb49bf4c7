import Mathlib.Data.List.Dedup
import Verif.Dist.HEMSpec

/-!
# The number of clusters
-/

namespace Verif.Dist

/-- The number of clusters that have nodes. -/
def numClusters (dist : List Nat) (C : Nat → Nat) : Nat := ((List.range (globalN dist)).map C).dedup.length

end Verif.Dist
