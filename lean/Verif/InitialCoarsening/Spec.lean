import Verif.InitialCoarsening.Model
import Verif.Contraction.Spec
import Mathlib.Logic.Relation

/-!
# Specification of the hierarchy used for initial bipartitioning

`Contracted g mapping h` (`Verif/Contraction/Spec.lean`): `h` is the graph that merges the nodes of `g` as given by `mapping`.
-/

namespace Verif.InitialCoarsening
open Finset
open Verif.Contraction (Contracted)

/-- Node weights that the bit-field can represent, also if they are added up. -/
structure Small (bits n : Nat) (w : Nat → Int) : Prop where
  pos : 0 < bits
  nonneg : ∀ u, u < n → 0 ≤ w u
  total : ∑ u ∈ range n, w u < 2 ^ (bits - 1)

/-- An undirected graph with at least one node, positive edge weights and node weights that fit. -/
structure Valid (bits : Nat) (g : Graph) : Prop where
  nonempty : 0 < g.n
  wf : g.WF
  symm : g.Symm
  pos : ∀ u, u < g.n → ∀ e ∈ g.adj u, 0 < e.2
  small : Small bits g.n g.w

/-- The nodes `u` and `v` are adjacent. -/
def Adj (g : Graph) (u v : Nat) : Prop := ∃ e ∈ g.adj u, e.1 = v

/-- From `u` to `v` there is a path of nodes that all have the same image. -/
def Connected (g : Graph) (f : Nat → Nat) (u v : Nat) : Prop :=
  Relation.ReflTransGen (fun a b => Adj g a b ∧ f a = f b) u v

/-- A level of the hierarchy: `h` merges the nodes of `g`, merged nodes are connected, and a node heavier than `M` is a single
node of `g`. -/
structure Level (M : Int) (g : Graph) (mapping : Nat → Nat) (h : Graph) : Prop where
  contracted : Contracted g mapping h
  single : ∀ u v, u < g.n → v < g.n → mapping u = mapping v → M < h.w (mapping u) → u = v
  connected : ∀ u v, u < g.n → v < g.n → mapping u = mapping v → Connected g mapping u v

/-- The coarsest graph. -/
def top (g : Graph) : List (Graph × (Nat → Nat)) → Graph
  | [] => g
  | (h, _) :: _ => h

/-- Every graph of the hierarchy, coarsest first, is related to the next finer one. -/
def Hierarchy (Q : Graph → (Nat → Nat) → Graph → Prop) (g : Graph) : List (Graph × (Nat → Nat)) → Prop
  | [] => True
  | (h, mapping) :: levels => Q (top g levels) mapping h ∧ Hierarchy Q g levels

/-- The degree buckets are consecutive ranges of nodes. -/
structure BucketsOk (n buckets : Nat) (start : Nat → Nat) : Prop where
  mono : ∀ b, b < buckets → start b ≤ start (b + 1)
  le : ∀ b, b ≤ buckets → start b ≤ n

/-- What the random number generators guarantee: they permute. -/
structure Oracle.Ok (buckets : Nat) (start : Nat → Nat) (o : Oracle) : Prop where
  chunks : ∀ b, b < buckets → (o.chunks b).Perm (List.range ((start (b + 1) - start b) / chunkSize))
  perm : ∀ b j, (o.perm b j).Perm (List.range chunkSize)

end Verif.InitialCoarsening
