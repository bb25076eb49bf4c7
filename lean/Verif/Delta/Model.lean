import Verif.DynMaps.Model

/-!
# Model of the delta partition

Source: `kaminpar-shm/datastructures/delta_partitioned_graph.h` (DG).  The hash map `_partition_delta` is the
model of `DynamicFlatMap` from `Verif/DynMaps`.  The shared partition is not modified by any of these
functions; it is a parameter.  `none`: a search in the hash map does not terminate.
-/

namespace Verif.Delta
open Verif.DynMaps

/-- `_block_weights_delta` and `_partition_delta`. -/
structure Delta where
  bw : Nat → Int
  tab : Table

/-- The constructor, DG 21-25. -/
def Delta.new : Delta := { bw := fun _ => 0, tab := Table.new 16 }

/-- `block`, DG 43-46. -/
def Delta.block? (part : Nat → Nat) (d : Delta) (u : Nat) : Option Nat := do
  let it ← d.tab.getIfContained? u
  some (match it with
    | some b => b.toNat
    | none => part u)

/-- `set_block<true>`, DG 48-64. -/
def Delta.setBlock? (w : Nat → Int) (part : Nat → Nat) (d : Delta) (u newB : Nat) : Option Delta := do
  let oldB ← d.block? part u
  let bw := upd d.bw oldB (d.bw oldB - w u)
  let bw := upd bw newB (bw newB + w u)
  let tab ← Flat.modify? d.tab u fun _ => newB
  some { bw, tab }

/-- `block_weight`, DG 66-68. -/
def Delta.blockWeight (sharedBw : Nat → Int) (d : Delta) (b : Nat) : Int := sharedBw b + d.bw b

/-- `for_each`, DG 70-72. -/
def Delta.forEach (d : Delta) : List (Nat × Nat) := (Flat.forEach d.tab).map fun e => (e.1, e.2.toNat)

/-- `clear`, DG 78-81. -/
def Delta.clear (d : Delta) : Delta := { bw := fun _ => 0, tab := Flat.clear d.tab }

/-- The calls that change a delta partition. -/
inductive Op
  | setBlock (u b : Nat)
  | clear
  deriving DecidableEq

def Delta.op (w : Nat → Int) (part : Nat → Nat) (d : Delta) : Op → Option Delta
  | .setBlock u b => d.setBlock? w part u b
  | .clear => some d.clear

/-- The shared partition with its block weights. -/
structure Shared where
  part : Nat → Nat
  bw : Nat → Int

/-- `set_block<true>` of the shared partition by a single thread, `partitioned_graph.h` 152-165 (the node is
assigned). -/
def Shared.setBlock (w : Nat → Int) (s : Shared) (e : Nat × Nat) : Shared :=
  let bw := upd s.bw (s.part e.1) (s.bw (s.part e.1) - w e.1)
  let bw := upd bw e.2 (bw e.2 + w e.1)
  { part := upd s.part e.1 e.2, bw }

end Verif.Delta
