import Verif.Files.Parse
import Verif.CsrGraph.Props

/-!
# Reading a file that follows the format: the arrays of the graph
-/

namespace Verif.Files
open Verif.CsrGraph (Arr weightAt Weights)

/-- All edges, node by node. -/
def Desc.flat (d : Desc) : List (Nat × Nat) := d.flatMap (·.2)

theorem flat_length (d : Desc) : d.flat.length = d.edges := by
  simp [Desc.flat, Desc.edges, List.length_flatMap]

theorem toSigned_of_lt {b x : Nat} (h : x < 2 ^ (b - 1)) : toSigned b x = x := by
  have h2 : x % 2 ^ b = x := Nat.mod_eq_of_lt (lt_of_lt_of_le h (Nat.pow_le_pow_right (by decide) (by omega)))
  simp [toSigned, h2, h]

theorem edges_append (d d' : Desc) : Desc.edges (d ++ d') = Desc.edges d + Desc.edges d' := by
  simp [Desc.edges]

theorem flat_append (d d' : Desc) : Desc.flat (d ++ d') = Desc.flat d ++ Desc.flat d' := by
  simp [Desc.flat]

/-- The arrays hold the first nodes and edges. -/
structure Inv (h : Header) (d : Desc) (s : Csr) : Prop where
  u : s.u = d.length
  e : s.e = d.edges
  nodesSize : s.nodes.size = h.n + 1
  edgesSize : s.edges.size = 2 * h.m
  nwSize : s.nw.size = if h.hasNw then h.n else 0
  ewSize : s.ew.size = if h.hasEw then 2 * h.m else 0
  nodes : ∀ i, i < d.length → s.nodes.data i = Desc.edges (d.take i)
  edges : ∀ j y, d.flat[j]? = some y → s.edges.data j = y.1
  ew : h.hasEw = true → ∀ j y, d.flat[j]? = some y → s.ew.data j = y.2
  nw : h.hasNw = true → ∀ i x, d[i]? = some x → s.nw.data i = x.1
  totalNw : h.hasNw = true → s.totalNw = (d.map (·.1)).sum
  totalEw : h.hasEw = true → s.totalEw = (d.flat.map (·.2)).sum
  noNw : h.hasNw = false → s.totalNw = 0
  noEw : h.hasEw = false → s.totalEw = 0

theorem inv_init (h : Header) (junk : Junk) : Inv h [] (Csr.init h junk) :=
  ⟨rfl, rfl, rfl, rfl, rfl, rfl, fun _ hi => absurd hi (Nat.not_lt_zero _), fun _ _ hj => by simp [Desc.flat] at hj,
    fun _ _ _ hj => by simp [Desc.flat] at hj, fun _ _ _ hj => by simp at hj, fun _ => rfl, fun _ => rfl,
    fun _ => rfl, fun _ => rfl⟩

theorem store_ok {α : Type} {a : Arr α} {i : Nat} (h : i < a.size) (x : α) :
    store a i x = .ok { a with data := upd a.data i x } := by simp [store, h]

theorem getElem?_snoc {α : Type} {l : List α} {a x : α} {i : Nat} (h : (l ++ [a])[i]? = some x) :
    (l[i]? = some x ∧ i < l.length) ∨ (i = l.length ∧ x = a) := by
  rcases lt_trichotomy i l.length with hi | hi | hi
  · rw [List.getElem?_append_left hi] at h
    exact Or.inl ⟨h, hi⟩
  · subst hi
    simp at h
    exact Or.inr ⟨rfl, h.symm⟩
  · rw [List.getElem?_eq_none (by simp; omega)] at h
    cases h

theorem node_ok {w : Widths} {h : Header} {d : Desc} {s : Csr} (hi : Inv h d s) {x : Nat} (hn : d.length < h.n)
    (hw : h.n < 2 ^ w.node) (hx : h.hasNw = true → x < 2 ^ (w.nw - 1))
    (hsum : h.hasNw = true → (d.map (·.1)).sum + x < 2 ^ 64) :
    ∃ s', Csr.node w h s x = .ok s' ∧ Inv h (d ++ [(x, [])]) s' := by
  have hu : toUnsigned w.node (d.length + 1) = d.length + 1 := Nat.mod_eq_of_lt (by omega)
  have hnodes : ∀ i, i < (d ++ [(x, ([] : List (Nat × Nat)))]).length →
      upd s.nodes.data s.u s.e i = Desc.edges ((d ++ [(x, [])]).take i) := by
    intro i hil
    rw [hi.u, hi.e]
    by_cases e : i = d.length
    · subst e
      rw [upd_same, List.take_left']
      rfl
    · simp only [List.length_append, List.length_cons, List.length_nil] at hil
      rw [upd_ne _ _ e, hi.nodes i (by omega), List.take_append_of_le_length (by omega)]
  have hflat : Desc.flat (d ++ [(x, [])]) = Desc.flat d := by simp [Desc.flat]
  unfold Csr.node
  rw [store_ok (by rw [hi.nodesSize, hi.u]; omega)]
  simp only [ok_bind, pure_eq]
  cases hh : h.hasNw with
  | false =>
    simp only [Bool.false_eq_true, if_false, ok_bind]
    refine ⟨_, rfl, ?_, ?_, hi.nodesSize, hi.edgesSize, hi.nwSize, hi.ewSize, hnodes, ?_, ?_,
      fun h => (by rw [hh] at h; cases h), fun h => (by rw [hh] at h; cases h), ?_, hi.noNw, hi.noEw⟩
    · show toUnsigned w.node (s.u + 1) = _
      rw [hi.u, hu]; simp
    · show s.e = _
      rw [hi.e, edges_append]; rfl
    · rw [hflat]; exact hi.edges
    · rw [hflat]; exact hi.ew
    · rw [hflat]; exact hi.totalEw
  | true =>
    simp only [if_true]
    rw [store_ok (by show s.u < s.nw.size; rw [hi.nwSize, hi.u, hh]; simpa using hn)]
    simp only [ok_bind]
    refine ⟨_, rfl, ?_, ?_, hi.nodesSize, hi.edgesSize, hi.nwSize, hi.ewSize, hnodes, ?_, ?_, ?_, ?_, ?_,
      fun h => (by rw [hh] at h; cases h), hi.noEw⟩
    · show toUnsigned w.node (s.u + 1) = _
      rw [hi.u, hu]; simp
    · show s.e = _
      rw [hi.e, edges_append]; rfl
    · rw [hflat]; exact hi.edges
    · rw [hflat]; exact hi.ew
    · intro _ i y hiy
      show upd s.nw.data s.u (toSigned w.nw x) i = _
      rw [hi.u]
      rcases getElem?_snoc hiy with ⟨h1, h2⟩ | ⟨rfl, rfl⟩
      · rw [upd_ne _ _ (by omega)]
        exact hi.nw hh i y h1
      · rw [upd_same, toSigned_of_lt (hx hh)]
    · intro _
      show (s.totalNw + x) % 2 ^ 64 = _
      rw [hi.totalNw hh, Nat.mod_eq_of_lt (hsum hh)]
      simp
    · rw [hflat]; exact hi.totalEw

theorem edge_ok {w : Widths} {h : Header} {d : Desc} {x : Nat} {nb : List (Nat × Nat)} {s : Csr}
    (hi : Inv h (d ++ [(x, nb)]) s) {y : Nat × Nat} (hm : Desc.edges (d ++ [(x, nb)]) < 2 * h.m)
    (hw : 2 * h.m < 2 ^ w.edge) (hv : y.1 < 2 ^ w.node) (hy : h.hasEw = true → y.2 < 2 ^ (w.ew - 1))
    (hsum : h.hasEw = true → ((Desc.flat (d ++ [(x, nb)])).map (·.2)).sum + y.2 < 2 ^ 64) :
    ∃ s', Csr.edge w h s y.2 y.1 = .ok s' ∧ Inv h (d ++ [(x, nb ++ [y])]) s' := by
  have hflat : Desc.flat (d ++ [(x, nb ++ [y])]) = Desc.flat (d ++ [(x, nb)]) ++ [y] := by simp [Desc.flat]
  have hedges : Desc.edges (d ++ [(x, nb ++ [y])]) = Desc.edges (d ++ [(x, nb)]) + 1 := by
    rw [← flat_length, hflat, List.length_append, flat_length]; rfl
  have hu : toUnsigned w.edge (s.e + 1) = Desc.edges (d ++ [(x, nb ++ [y])]) := by
    rw [hedges, hi.e]
    exact Nat.mod_eq_of_lt (by omega)
  have hnodes : ∀ i, i < (d ++ [(x, nb ++ [y])]).length →
      s.nodes.data i = Desc.edges ((d ++ [(x, nb ++ [y])]).take i) := by
    intro i hil
    rw [hi.nodes i (by simpa using hil)]
    simp only [List.length_append, List.length_cons, List.length_nil] at hil
    rw [List.take_append_of_le_length (by omega), List.take_append_of_le_length (by omega)]
  have hnw : ∀ (i : Nat) (p : Nat × List (Nat × Nat)), (d ++ [(x, nb ++ [y])])[i]? = some p →
      ∃ q : Nat × List (Nat × Nat), (d ++ [(x, nb)])[i]? = some q ∧ q.1 = p.1 := by
    intro i p hp
    rcases getElem?_snoc hp with ⟨h1, h2⟩ | ⟨rfl, rfl⟩
    · exact ⟨p, by rw [List.getElem?_append_left h2]; exact h1, rfl⟩
    · exact ⟨(x, nb), by simp, rfl⟩
  have hedg : ∀ j p, (Desc.flat (d ++ [(x, nb ++ [y])]))[j]? = some p →
      upd s.edges.data s.e (toUnsigned w.node y.1) j = p.1 := by
    intro j p hp
    rw [hflat] at hp
    rw [hi.e, ← flat_length]
    rcases getElem?_snoc hp with ⟨h1, h2⟩ | ⟨rfl, rfl⟩
    · rw [upd_ne _ _ (by omega)]
      exact hi.edges j p h1
    · rw [upd_same]
      exact Nat.mod_eq_of_lt hv
  unfold Csr.edge
  rw [store_ok (by rw [hi.edgesSize, hi.e]; exact hm)]
  simp only [ok_bind, pure_eq]
  cases hh : h.hasEw with
  | false =>
    simp only [Bool.false_eq_true, if_false, ok_bind]
    refine ⟨_, rfl, ?_, hu, hi.nodesSize, hi.edgesSize, hi.nwSize, hi.ewSize, hnodes, hedg,
      fun h => (by rw [hh] at h; cases h), ?_, ?_, fun h => (by rw [hh] at h; cases h), hi.noNw, hi.noEw⟩
    · show s.u = _
      rw [hi.u]; simp
    · intro hn i p hp
      obtain ⟨q, hq, e⟩ := hnw i p hp
      rw [← e]
      exact hi.nw hn i q hq
    · intro hn
      show s.totalNw = _
      rw [hi.totalNw hn]; simp
  | true =>
    simp only [if_true]
    rw [store_ok (by show s.e < s.ew.size; rw [hi.ewSize, hi.e, hh]; exact hm)]
    simp only [ok_bind]
    refine ⟨_, rfl, ?_, hu, hi.nodesSize, hi.edgesSize, hi.nwSize, hi.ewSize, hnodes, hedg, ?_, ?_, ?_, ?_,
      hi.noNw, fun h => (by rw [hh] at h; cases h)⟩
    · show s.u = _
      rw [hi.u]; simp
    · intro _ j p hp
      show upd s.ew.data s.e (toSigned w.ew y.2) j = _
      rw [hflat] at hp
      rw [hi.e, ← flat_length]
      rcases getElem?_snoc hp with ⟨h1, h2⟩ | ⟨rfl, rfl⟩
      · rw [upd_ne _ _ (by omega)]
        exact hi.ew hh j p h1
      · rw [upd_same, toSigned_of_lt (hy hh)]
    · intro hn i p hp
      obtain ⟨q, hq, e⟩ := hnw i p hp
      rw [← e]
      exact hi.nw hn i q hq
    · intro hn
      show s.totalNw = _
      rw [hi.totalNw hn]; simp
    · intro _
      show (s.totalEw + y.2) % 2 ^ 64 = _
      rw [hi.totalEw hh, Nat.mod_eq_of_lt (hsum hh), hflat]
      simp

/-- The described graph can be stored: conditions on a graph `d` with the header `h`. -/
structure Fits (w : Widths) (h : Header) (d : Desc) : Prop where
  n : d.length = h.n
  m : d.edges = 2 * h.m
  node : h.n < 2 ^ w.node
  edge : 2 * h.m < 2 ^ w.edge
  targets : ∀ y ∈ d.flat, y.1 < h.n
  nw : h.hasNw = true → ∀ x ∈ d, 1 ≤ x.1 ∧ x.1 < 2 ^ (w.nw - 1)
  ew : h.hasEw = true → ∀ y ∈ d.flat, 1 ≤ y.2 ∧ y.2 < 2 ^ (w.ew - 1)
  sumNw : h.hasNw = true → (d.map (·.1)).sum < 2 ^ 64
  sumEw : h.hasEw = true → (d.flat.map (·.2)).sum < 2 ^ 64

theorem feedEdges_ok {w : Widths} {h : Header} {D : Desc} (hD : Fits w h D) {d : Desc} {x : Nat} {d' : Desc} :
    ∀ (nb pre : List (Nat × Nat)) (s : Csr), D = d ++ [(x, pre ++ nb)] ++ d' → Inv h (d ++ [(x, pre)]) s →
      ∃ s', feedEdges (Csr.edge w h) nb s = .ok s' ∧ Inv h (d ++ [(x, pre ++ nb)]) s'
  | [], pre, s, _, hi => ⟨s, rfl, by simpa using hi⟩
  | y :: nb, pre, s, e, hi => by
    have hflat : D.flat = Desc.flat (d ++ [(x, pre)]) ++ (y :: nb ++ Desc.flat d') := by
      rw [e]; simp [Desc.flat]
    have hy : y ∈ D.flat := by rw [hflat]; simp
    obtain ⟨s1, h1, h2⟩ := edge_ok (w := w) hi (y := y)
      (by rw [← hD.m, ← flat_length, ← flat_length, hflat]; simp)
      hD.edge (lt_trans (hD.targets y hy) hD.node) (fun hh => (hD.ew hh y hy).2)
      (fun hh => lt_of_le_of_lt (by rw [hflat]; simp [List.sum_append]) (hD.sumEw hh))
    obtain ⟨s2, h3, h4⟩ := feedEdges_ok hD (d' := d') nb (pre ++ [y]) s1 (by rw [e]; simp) h2
    refine ⟨s2, ?_, by simpa using h4⟩
    simp only [feedEdges, h1, ok_bind, h3]

theorem feed_ok {w : Widths} {h : Header} {D : Desc} (hD : Fits w h D) :
    ∀ (d' d : Desc) (s : Csr), D = d ++ d' → Inv h d s →
      ∃ s', feed (Csr.node w h) (Csr.edge w h) d' s = .ok s' ∧ Inv h D s'
  | [], d, s, e, hi => ⟨s, rfl, by rw [e, List.append_nil]; exact hi⟩
  | x :: d', d, s, e, hi => by
    have hx : x ∈ D := by rw [e]; simp
    obtain ⟨s1, h1, h2⟩ := node_ok (w := w) hi (x := x.1) (by rw [← hD.n, e]; simp) hD.node
      (fun hh => (hD.nw hh x hx).2)
      (fun hh => lt_of_le_of_lt (by rw [e]; simp) (hD.sumNw hh))
    obtain ⟨s2, h3, h4⟩ := feedEdges_ok hD (d := d) (x := x.1) (d' := d') x.2 [] s1 (by rw [e]; simp) h2
    obtain ⟨s3, h5, h6⟩ := feed_ok hD d' (d ++ [x]) s2 (by rw [e]; simp) (by simpa using h4)
    exact ⟨s3, by simp only [feed, h1, ok_bind, h3, h5], h6⟩

/-! ## The specification of the arrays -/

/-- The arrays represent the graph: the right sizes and offsets, and for every node its weight and neighbours.
An absent array of weights stands for weights 1. -/
structure Represents (d : Desc) (a : Input) : Prop where
  n : a.nodes.size = d.length + 1
  m : a.edges.size = d.edges
  wNw : Weights a.nw d.length
  wEw : Weights a.ew d.edges
  first : a.nodes.data 0 = 0
  degree : ∀ u x, d[u]? = some x → a.nodes.data (u + 1) = a.nodes.data u + x.2.length
  nw : ∀ u x, d[u]? = some x → weightAt a.nw u = x.1
  adj : ∀ u x, d[u]? = some x → (List.range' (a.nodes.data u) x.2.length).map
    (fun e => (a.edges.data e, weightAt a.ew e)) = x.2.map fun y => (y.1, (y.2 : Int))

theorem sum_eq_length {l : List Nat} (h : ∀ x ∈ l, 1 ≤ x) : l.length ≤ l.sum ∧ (l.sum = l.length → ∀ x ∈ l, x = 1) := by
  induction l with
  | nil => simp
  | cons a l ih =>
    obtain ⟨h1, h2⟩ := ih fun x hx => h x (List.mem_cons_of_mem _ hx)
    have ha := h a List.mem_cons_self
    refine ⟨by simp; omega, fun he x hx => ?_⟩
    simp only [List.sum_cons, List.length_cons] at he
    rcases List.mem_cons.1 hx with rfl | hx
    · omega
    · exact h2 (by omega) x hx

theorem take_succ_edges {d : Desc} {u : Nat} {x : Nat × List (Nat × Nat)} (h : d[u]? = some x) :
    Desc.edges (d.take (u + 1)) = Desc.edges (d.take u) + x.2.length := by
  rw [List.take_add_one, h, edges_append]
  simp [Desc.edges]

theorem edges_take_le (d : Desc) (u : Nat) : Desc.edges (d.take u) ≤ d.edges := by
  conv_rhs => rw [← List.take_append_drop u d, edges_append]
  omega

theorem flat_segment {d : Desc} {u : Nat} {x : Nat × List (Nat × Nat)} (h : d[u]? = some x) {j : Nat}
    (hj : j < x.2.length) : d.flat[Desc.edges (d.take u) + j]? = x.2[j]? := by
  have hu : u < d.length := by
    by_contra hc
    rw [List.getElem?_eq_none (by omega)] at h
    cases h
  have e : d = d.take u ++ x :: d.drop (u + 1) := by
    have hx : d[u] = x := by
      rw [List.getElem?_eq_getElem hu] at h
      exact Option.some.inj h
    rw [← hx, ← List.drop_eq_getElem_cons hu, List.take_append_drop]
  have hf : d.flat = Desc.flat (d.take u) ++ (x.2 ++ Desc.flat (d.drop (u + 1))) := by
    conv_lhs => rw [e]
    simp [Desc.flat]
  rw [hf, ← flat_length, List.getElem?_append_right (by omega), Nat.add_sub_cancel_left, List.getElem?_append_left hj]

/-- What follows the parsing. -/
theorem finish_ok {w : Widths} {dbg : Bool} {h : Header} {D : Desc} (hD : Fits w h D) {s : Csr} (hi : Inv h D s)
    (hnw1 : h.hasNw = false → ∀ x ∈ D, x.1 = 1) (hew1 : h.hasEw = false → ∀ y ∈ D.flat, y.2 = 1)
    (hsum1 : h.hasNw = true → (D.map (·.1)).sum < 2 ^ w.node)
    (hsum2 : h.hasEw = true → (D.flat.map (·.2)).sum < 2 ^ w.edge)
    (hdbg1 : dbg = true → toSigned 64 s.totalNw ≤ 2 ^ (w.nw - 1) - 1)
    (hdbg2 : dbg = true → toSigned 64 s.totalEw ≤ 2 ^ (w.ew - 1) - 1) :
    ∃ a, s.finish w dbg h = .ok a ∧ Represents D a := by
  unfold Csr.finish
  rw [kassert_ok (by intro _; simp [hi.u, hi.nodesSize, hD.n]), ok_bind,
    kassert_ok (by intro _; simp [hi.e, hD.m]), ok_bind, store_ok (by rw [hi.nodesSize, hi.u, hD.n]; omega), ok_bind]
  simp only []
  rw [kassert_ok fun hd => decide_eq_true (hdbg1 hd), ok_bind, kassert_ok fun hd => decide_eq_true (hdbg2 hd), ok_bind]
  refine ⟨_, rfl, ?_⟩
  have hnodes : ∀ i, i ≤ D.length → upd s.nodes.data s.u s.e i = Desc.edges (D.take i) := by
    intro i hil
    rw [hi.u, hi.e]
    by_cases e : i = D.length
    · subst e
      rw [upd_same, List.take_length]
    · rw [upd_ne _ _ e, hi.nodes i (by omega)]
  have hlt : ∀ {u : Nat} {x : Nat × List (Nat × Nat)}, D[u]? = some x → u < D.length := by
    intro u x hx
    by_contra hc
    rw [List.getElem?_eq_none (by omega)] at hx
    cases hx
  have hflt : ∀ {u : Nat} {x : Nat × Nat}, D.flat[u]? = some x → u < D.flat.length := by
    intro u x hx
    by_contra hc
    rw [List.getElem?_eq_none (by omega)] at hx
    cases hx
  -- the array of node weights
  have hnw : ∀ b, b = (h.hasNw && decide (toUnsigned w.node (s.totalNw + 1) = s.nodes.size)) →
      Weights (if b = true then Arr.empty s.nw.data else s.nw) D.length ∧
      ∀ u x, D[u]? = some x → weightAt (if b = true then Arr.empty s.nw.data else s.nw) u = x.1 := by
    intro b hb
    cases hh : h.hasNw with
    | false =>
      rw [hh, Bool.false_and] at hb
      subst hb
      have h0 : s.nw.size = 0 := by rw [hi.nwSize, hh]; rfl
      simp only [Bool.false_eq_true, if_false]
      refine ⟨⟨Or.inl h0, fun i hi => absurd hi (by omega)⟩, fun u x hx => ?_⟩
      rw [weightAt, if_pos h0, hnw1 hh x (List.mem_of_getElem? hx)]
      rfl
    | true =>
      have hs : s.nw.size = D.length := by rw [hi.nwSize, hh, hD.n]; rfl
      have hpos : ∀ x ∈ D.map (·.1), 1 ≤ x := by
        intro x hx
        obtain ⟨y, hy, rfl⟩ := List.mem_map.1 hx
        exact (hD.nw hh y hy).1
      cases b with
      | false =>
        simp only [Bool.false_eq_true, if_false]
        refine ⟨⟨Or.inr hs, fun i hil => ?_⟩, fun u x hx => ?_⟩
        · have hg : D[i]? = some D[i] := List.getElem?_eq_getElem (by omega)
          rw [hi.nw hh i _ hg]
          exact_mod_cast (hD.nw hh _ (List.mem_of_getElem? hg)).1
        · rw [weightAt, if_neg (by have := hlt hx; omega), hi.nw hh u x hx]
      | true =>
        simp only [if_true]
        refine ⟨⟨Or.inl rfl, fun i hi => absurd hi (Nat.not_lt_zero _)⟩, fun u x hx => ?_⟩
        rw [weightAt, if_pos (show (Arr.empty _).size = 0 from rfl)]
        have ht := hi.totalNw hh
        have hc : (s.totalNw + 1) % 2 ^ w.node = h.n + 1 := by
          have := (Bool.and_eq_true _ _ ▸ hb.symm : h.hasNw = true ∧ _).2
          rw [← hi.nodesSize]
          exact of_decide_eq_true this
        have hlt' := hsum1 hh
        have hsum : (D.map (·.1)).sum = (D.map (·.1)).length := by
          rw [List.length_map, hD.n]
          rcases Nat.lt_or_ge ((D.map (·.1)).sum + 1) (2 ^ w.node) with hl | hl
          · rw [ht, Nat.mod_eq_of_lt hl] at hc
            omega
          · rw [ht, show (D.map (·.1)).sum + 1 = 2 ^ w.node by omega, Nat.mod_self] at hc
            omega
        have := (sum_eq_length hpos).2 hsum x.1 (List.mem_map.2 ⟨x, List.mem_of_getElem? hx, rfl⟩)
        rw [this]
        rfl
  -- the array of edge weights
  have hew : ∀ b, b = (h.hasEw && decide (toUnsigned w.edge s.totalEw = s.edges.size)) →
      Weights (if b = true then Arr.empty s.ew.data else s.ew) D.edges ∧
      ∀ j y, D.flat[j]? = some y → weightAt (if b = true then Arr.empty s.ew.data else s.ew) j = y.2 := by
    intro b hb
    cases hh : h.hasEw with
    | false =>
      rw [hh, Bool.false_and] at hb
      subst hb
      have h0 : s.ew.size = 0 := by rw [hi.ewSize, hh]; rfl
      simp only [Bool.false_eq_true, if_false]
      refine ⟨⟨Or.inl h0, fun i hi => absurd hi (by omega)⟩, fun u x hx => ?_⟩
      rw [weightAt, if_pos h0, hew1 hh x (List.mem_of_getElem? hx)]
      rfl
    | true =>
      have hs : s.ew.size = D.edges := by rw [hi.ewSize, hh, hD.m]; rfl
      have hpos : ∀ x ∈ D.flat.map (·.2), 1 ≤ x := by
        intro x hx
        obtain ⟨y, hy, rfl⟩ := List.mem_map.1 hx
        exact (hD.ew hh y hy).1
      cases b with
      | false =>
        simp only [Bool.false_eq_true, if_false]
        refine ⟨⟨Or.inr hs, fun i hil => ?_⟩, fun u x hx => ?_⟩
        · have hil' : i < D.flat.length := by rw [flat_length]; omega
          have hg : D.flat[i]? = some D.flat[i] := List.getElem?_eq_getElem hil'
          rw [hi.ew hh i _ hg]
          exact_mod_cast (hD.ew hh _ (List.mem_of_getElem? hg)).1
        · have := hflt hx
          rw [flat_length] at this
          rw [weightAt, if_neg (by omega), hi.ew hh u x hx]
      | true =>
        simp only [if_true]
        refine ⟨⟨Or.inl rfl, fun i hi => absurd hi (Nat.not_lt_zero _)⟩, fun u x hx => ?_⟩
        rw [weightAt, if_pos (show (Arr.empty _).size = 0 from rfl)]
        have ht := hi.totalEw hh
        have hc : s.totalEw % 2 ^ w.edge = 2 * h.m := by
          have := (Bool.and_eq_true _ _ ▸ hb.symm : h.hasEw = true ∧ _).2
          rw [← hi.edgesSize]
          exact of_decide_eq_true this
        rw [ht, Nat.mod_eq_of_lt (hsum2 hh)] at hc
        have := (sum_eq_length hpos).2 (by rw [List.length_map, flat_length, hD.m]; exact hc) x.2
          (List.mem_map.2 ⟨x, List.mem_of_getElem? hx, rfl⟩)
        rw [this]
        rfl
  refine ⟨by show s.nodes.size = _; rw [hi.nodesSize, hD.n], by show s.edges.size = _; rw [hi.edgesSize, hD.m],
    (hnw _ rfl).1, (hew _ rfl).1, ?_, ?_, (hnw _ rfl).2, ?_⟩
  · show upd s.nodes.data s.u s.e 0 = 0
    rw [hnodes 0 (Nat.zero_le _)]
    rfl
  · intro u x hx
    have hu := hlt hx
    show upd s.nodes.data s.u s.e (u + 1) = upd s.nodes.data s.u s.e u + _
    rw [hnodes u (by omega), hnodes (u + 1) (by omega), take_succ_edges hx]
  · intro u x hx
    have hu := hlt hx
    show (List.range' (upd s.nodes.data s.u s.e u) x.2.length).map _ = _
    rw [hnodes u (by omega)]
    apply List.ext_getElem (by simp)
    intro j hj1 hj2
    simp only [List.length_map] at hj2
    have hseg := flat_segment hx hj2
    rw [List.getElem?_eq_getElem hj2] at hseg
    simp only [List.getElem_map, List.getElem_range', Nat.one_mul]
    rw [hi.edges _ _ hseg, (hew _ rfl).2 _ _ hseg]

end Verif.Files
