import Verif.Sum

/-!
# Graphs as seen through the graph interface

Node IDs are `0..n-1`; `adj u` lists the pairs (neighbour, edge weight) in the order in which
`adjacent_nodes(u, ...)` visits them; `w u` is the weight of node `u`.  How the CSR and compressed
representations implement this interface is the subject of other areas.
-/

namespace Verif
open Finset

structure Graph where
  n : Nat
  w : Nat → Int
  adj : Nat → List (Nat × Int)

/-- All neighbours exist. -/
def Graph.WF (g : Graph) : Prop := ∀ u, u < g.n → ∀ e ∈ g.adj u, e.1 < g.n

/-- Each edge is stored in both directions with the same weight. -/
def Graph.Symm (g : Graph) : Prop :=
  ∀ u v c, u < g.n → v < g.n → (g.adj u).count (v, c) = (g.adj v).count (u, c)

/-- Total weight of the edges stored from `u` to `v`. -/
def Graph.wt (g : Graph) (u v : Nat) : Int := (((g.adj u).filter fun e => e.1 = v).map Prod.snd).sum

/-- Total weight of the stored edges from `u` to nodes with property `P`. -/
def Graph.conn (g : Graph) (u : Nat) (P : Nat → Prop) [DecidablePred P] : Int :=
  ((g.adj u).map fun e => if P e.1 then e.2 else 0).sum

theorem sum_filter_map {l : List (Nat × Int)} {p : Nat × Int → Bool} :
    ((l.filter p).map Prod.snd).sum = (l.map fun e => if p e then e.2 else 0).sum := by
  induction l with
  | nil => rfl
  | cons a l ih =>
    rw [List.filter_cons]
    by_cases h : p a
    · rw [if_pos h]; simp [ih, h]
    · rw [if_neg h]; simp [ih, h]

theorem Graph.wt_eq (g : Graph) (u v : Nat) :
    g.wt u v = ((g.adj u).map fun e => if e.1 = v then e.2 else 0).sum := by
  unfold Graph.wt
  rw [sum_filter_map]
  simp

/-- The weight to a set of nodes, node by node. -/
theorem Graph.conn_eq_sum (g : Graph) (hg : g.WF) {u : Nat} (hu : u < g.n) (P : Nat → Prop)
    [DecidablePred P] : g.conn u P = ∑ v ∈ range g.n, if P v then g.wt u v else 0 := by
  have key : ∀ (l : List (Nat × Int)), (∀ e ∈ l, e.1 < g.n) →
      (l.map fun e => if P e.1 then e.2 else 0).sum =
        ∑ v ∈ range g.n, if P v then (l.map fun e => if e.1 = v then e.2 else 0).sum else 0 := by
    intro l
    induction l with
    | nil => intro _; simp
    | cons a l ih =>
      intro h
      simp only [List.map_cons, List.sum_cons]
      rw [ih fun e he => h e (List.mem_cons_of_mem _ he)]
      have : (if P a.1 then a.2 else 0) =
          ∑ v ∈ range g.n, if P v then (if a.1 = v then a.2 else 0) else 0 := by
        rw [Finset.sum_eq_single a.1]
        · simp
        · intro b _ hb; simp [Ne.symm hb]
        · intro hna; exact absurd (mem_range.2 (h a List.mem_cons_self)) hna
      rw [this, ← Finset.sum_add_distrib]
      apply Finset.sum_congr rfl
      intro v _
      split <;> simp
  rw [Graph.conn, key _ (hg u hu)]
  simp only [Graph.wt_eq]

theorem perm_of_count {l l' : List (Nat × Int)} {u v : Nat}
    (h : ∀ c, l.count (v, c) = l'.count (u, c)) :
    ((l.filter fun e => e.1 = v).map Prod.snd).Perm ((l'.filter fun e => e.1 = u).map Prod.snd) := by
  have key : ∀ (l : List (Nat × Int)) (v : Nat) (c : Int),
      ((l.filter fun e => e.1 = v).map Prod.snd).count c = l.count (v, c) := by
    intro l v c
    induction l with
    | nil => rfl
    | cons a l ih =>
      obtain ⟨a1, a2⟩ := a
      rw [List.filter_cons, List.count_cons]
      by_cases h1 : a1 = v
      · subst h1
        simp only [decide_true, if_true, List.map_cons, List.count_cons, ih]
        simp
      · rw [if_neg (by simpa using h1), ih]
        simp [h1]
  rw [List.perm_iff_count]
  intro c
  rw [key, key, h]

/-- In an undirected graph the weights of both directions agree. -/
theorem Graph.wt_symm (g : Graph) (hs : g.Symm) {u v : Nat} (hu : u < g.n) (hv : v < g.n) :
    g.wt u v = g.wt v u :=
  (perm_of_count fun c => hs u v c hu hv).sum_eq

/-- Summing a symmetric function over all ordered pairs of different numbers below `n` counts each
unordered pair twice. -/
theorem sum_pairs (n : Nat) (f : Nat → Nat → Int) (hf : ∀ u v, u < n → v < n → f u v = f v u)
    (h0 : ∀ u, f u u = 0) :
    ∑ u ∈ range n, ∑ v ∈ range n, f u v = 2 * ∑ u ∈ range n, ∑ v ∈ range u, f u v := by
  induction n with
  | zero => rfl
  | succ n ih =>
    have ih := ih fun u v hu hv => hf u v (by omega) (by omega)
    rw [Finset.sum_range_succ]
    rw [Finset.sum_congr rfl fun u _ => Finset.sum_range_succ (fun v => f u v) n,
      Finset.sum_add_distrib, ih, Finset.sum_range_succ (fun v => f n v) n, h0,
      Finset.sum_range_succ (fun u => ∑ v ∈ range u, f u v) n,
      Finset.sum_congr rfl fun u hu => hf u n (by have := mem_range.1 hu; omega) (by omega)]
    ring

/-! ## Specification of the edge cut -/

/-- The total weight of the undirected edges whose ends are in different blocks: each pair `v < u` once. -/
def Graph.cut (g : Graph) (part : Nat → Nat) : Int :=
  ∑ u ∈ range g.n, ∑ v ∈ range u, if part u ≠ part v then g.wt u v else 0

/-- Counting the cut edges of every node gives twice the cut. -/
theorem Graph.sum_conn_ne (g : Graph) (hg : g.WF) (hs : g.Symm) (part : Nat → Nat) :
    ∑ u ∈ range g.n, g.conn u (fun v => part u ≠ part v) = 2 * g.cut part := by
  rw [Finset.sum_congr rfl fun u hu => g.conn_eq_sum hg (mem_range.1 hu) _]
  apply sum_pairs g.n fun u v => if part u ≠ part v then g.wt u v else 0
  · intro u v hu hv
    by_cases h : part u = part v
    · simp [h]
    · simp only [ne_eq, h, Ne.symm h, not_false_eq_true, if_true]
      exact g.wt_symm hs hu hv
  · intro u; simp

end Verif
