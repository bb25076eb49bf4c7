import Verif.Facade.Model
import Verif.CsrGraph.Props
import Verif.Permute.Props
import Verif.Isolated.Props
import Verif.Metrics.Props

namespace Verif.Facade
open Verif.Math Verif.CsrGraph Verif.Permute Verif.Isolated Verif.Metrics Verif.Reduce Finset

/-! ## Isomorphic graphs have the same cuts -/

/-- `h` is `g` with node `u` renamed to `π u` (and neighbours listed in another order). -/
structure Iso (g h : Graph) (π : Nat → Nat) : Prop where
  n : h.n = g.n
  lt : ∀ u, u < g.n → π u < g.n
  inj : ∀ u v, u < g.n → v < g.n → π u = π v → u = v
  w : ∀ u, u < g.n → h.w (π u) = g.w u
  adj : ∀ u, u < g.n → (h.adj (π u)).Perm ((g.adj u).map fun e => (π e.1, e.2))

theorem Iso.surj {g h : Graph} {π : Nat → Nat} (i : Iso g h π) {x : Nat} (hx : x < g.n) : ∃ u, u < g.n ∧ π u = x :=
  surj_of_inj i.lt i.inj x hx

theorem sum_bij_range {n : Nat} {π : Nat → Nat} (hlt : ∀ u, u < n → π u < n)
    (hinj : ∀ u v, u < n → v < n → π u = π v → u = v) (f : Nat → Int) :
    ∑ x ∈ range n, f x = ∑ u ∈ range n, f (π u) := by
  symm
  refine Finset.sum_bij (fun u _ => π u) ?_ ?_ ?_ ?_
  · intro u hu; exact mem_range.2 (hlt u (mem_range.1 hu))
  · intro u hu v hv h; exact hinj u v (mem_range.1 hu) (mem_range.1 hv) h
  · intro x hx
    obtain ⟨u, hu, h⟩ := surj_of_inj hlt hinj x (mem_range.1 hx)
    exact ⟨u, mem_range.2 hu, h⟩
  · intro u _; rfl

theorem Iso.wf {g h : Graph} {π : Nat → Nat} (i : Iso g h π) (hg : g.WF) : h.WF := by
  intro x hx e he
  rw [i.n] at hx ⊢
  obtain ⟨u, hu, rfl⟩ := i.surj hx
  obtain ⟨e', he', rfl⟩ := List.mem_map.1 ((i.adj u hu).mem_iff.1 he)
  exact i.lt _ (hg u hu e' he')

theorem count_map_inj {n : Nat} {π : Nat → Nat} (hinj : ∀ u v, u < n → v < n → π u = π v → u = v) {v : Nat} (hv : v < n)
    (c : Int) : ∀ l : List (Nat × Int), (∀ e ∈ l, e.1 < n) → (l.map fun e => (π e.1, e.2)).count (π v, c) = l.count (v, c)
  | [], _ => rfl
  | a :: l, h => by
    have ih := count_map_inj hinj hv c l fun e he => h e (List.mem_cons_of_mem _ he)
    rw [List.map_cons, List.count_cons, List.count_cons, ih]
    congr 1
    obtain ⟨a1, a2⟩ := a
    have ha := h (a1, a2) List.mem_cons_self
    have : ((π a1, a2) == (π v, c)) = ((a1, a2) == (v, c)) := by
      rw [Bool.eq_iff_iff]
      simp only [beq_iff_eq, Prod.mk.injEq]
      exact ⟨fun h => ⟨hinj _ _ ha hv h.1, h.2⟩, fun h => ⟨by rw [h.1], h.2⟩⟩
    simp only [this]

theorem Iso.symm {g h : Graph} {π : Nat → Nat} (i : Iso g h π) (hg : g.WF) (hs : g.Symm) : h.Symm := by
  intro x y c hx hy
  rw [i.n] at hx hy
  obtain ⟨u, hu, rfl⟩ := i.surj hx
  obtain ⟨v, hv, rfl⟩ := i.surj hy
  rw [(i.adj u hu).count_eq, (i.adj v hv).count_eq, count_map_inj i.inj hv c _ (hg u hu),
    count_map_inj i.inj hu c _ (hg v hv)]
  exact hs u v c hu hv

theorem Iso.cut {g h : Graph} {π : Nat → Nat} (i : Iso g h π) (hg : g.WF) (hs : g.Symm) (part : Nat → Nat) :
    h.cut part = g.cut fun u => part (π u) := by
  have h1 := h.sum_conn_ne (i.wf hg) (i.symm hg hs) part
  have h2 := g.sum_conn_ne hg hs fun u => part (π u)
  have h3 : ∑ u ∈ range h.n, h.conn u (fun v => part u ≠ part v) =
      ∑ u ∈ range g.n, g.conn u (fun v => part (π u) ≠ part (π v)) := by
    rw [i.n, sum_bij_range i.lt i.inj]
    apply Finset.sum_congr rfl
    intro u hu
    have hu := mem_range.1 hu
    unfold Graph.conn
    rw [((i.adj u hu).map _).sum_eq, List.map_map]
    rfl
  omega

/-! ## Ranges of edges -/

theorem flat_ranges {nodes : Nat → Nat} : ∀ {n : Nat}, (∀ u, u < n → nodes u ≤ nodes (u + 1)) →
    nodes 0 ≤ nodes n ∧
    (List.range n).flatMap (fun u => List.range' (nodes u) (nodes (u + 1) - nodes u)) =
      List.range' (nodes 0) (nodes n - nodes 0)
  | 0, _ => by simp
  | n + 1, h => by
    obtain ⟨h1, h2⟩ := flat_ranges (n := n) fun u hu => h u (by omega)
    have h3 := h n (by omega)
    refine ⟨by omega, ?_⟩
    rw [List.range_succ, List.flatMap_append, h2, List.flatMap_singleton]
    have : nodes n = nodes 0 + (nodes n - nodes 0) := by omega
    conv => lhs; rhs; rw [this]
    rw [show nodes (n + 1) - (nodes 0 + (nodes n - nodes 0)) = nodes (n + 1) - nodes n by omega,
      List.range'_append_1]
    congr 1
    omega

/-- Each edge belongs to a node. -/
theorem edge_owner {nodes : Nat → Nat} {n e : Nat} (h : ∀ u, u < n → nodes u ≤ nodes (u + 1)) (h0 : nodes 0 ≤ e)
    (he : e < nodes n) : ∃ u, u < n ∧ e ∈ List.range' (nodes u) (nodes (u + 1) - nodes u) := by
  have := (flat_ranges h).2
  have hm : e ∈ List.range' (nodes 0) (nodes n - nodes 0) := List.mem_range'_1.2 ⟨h0, by omega⟩
  rw [← this] at hm
  obtain ⟨u, hu, hm⟩ := List.mem_flatMap.1 hm
  exact ⟨u, List.mem_range.1 hu, hm⟩

theorem mono_le {nodes : Nat → Nat} {n : Nat} (h : ∀ u, u < n → nodes u ≤ nodes (u + 1)) : ∀ {a b : Nat}, a ≤ b → b ≤ n →
    nodes a ≤ nodes b := by
  intro a b hab
  induction hab with
  | refl => intro _; exact Nat.le_refl _
  | step hab ih =>
    intro hb
    exact Nat.le_trans (ih (Nat.le_of_lt hb)) (h _ hb)

/-! ## Counting the isolated nodes -/

/-- If the items with property `P` are the last ones, there are `countP P` of them. -/
theorem upward_countP {P : Nat → Bool} {n : Nat} (h : ∀ u v, u ≤ v → v < n → P u = true → P v = true) :
    ∀ u, u < n → (P u = true ↔ n - (List.range n).countP P ≤ u) := by
  induction n with
  | zero => intro u hu; omega
  | succ n ih =>
    have ih := ih fun u v a b c => h u v a (by omega) c
    have hle := List.countP_le_length (p := P) (l := List.range n)
    rw [List.length_range] at hle
    intro u hu
    rw [List.range_succ, List.countP_append, List.countP_singleton]
    by_cases hn : P n = true
    · rw [if_pos hn]
      by_cases hun : u = n
      · subst hun; simp only [hn, true_iff]; omega
      · rw [ih u (by omega)]; omega
    · rw [if_neg hn]
      have hall : ∀ v, v < n → ¬ P v = true := fun v hv hp => hn (h v n (by omega) (by omega) hp)
      have h0 : (List.range n).countP P = 0 := by
        rw [List.countP_eq_zero]
        intro a ha
        exact hall a (List.mem_range.1 ha)
      rw [h0]
      by_cases hun : u = n
      · subst hun
        exact ⟨fun hp => absurd hp hn, fun hp => by omega⟩
      · exact ⟨fun hp => absurd hp (hall u (by omega)), fun hp => by omega⟩

end Verif.Facade
