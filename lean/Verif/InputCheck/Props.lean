import Verif.InputCheck.Model
import Mathlib.Data.List.Basic
import Mathlib.Data.List.Nodup
import Mathlib.Tactic.Common

/-!
# C63: the validator for input graphs
-/

namespace Verif.InputCheck

/-! ## Specification -/

/-- The neighbourhood of a node: targets and weights. -/
def adj (nodes : Nat → Nat) (edges : Nat → Nat × Int) (u : Nat) : List (Nat × Int) :=
  (List.range' (nodes u) (nodes (u + 1) - nodes u)).map edges

/-- Every edge leads to a node and has a reverse edge with the same weight. -/
def Undirected (n : Nat) (adj : Nat → List (Nat × Int)) : Prop :=
  ∀ u, u < n → ∀ v w, (v, w) ∈ adj u → v < n ∧ (u, w) ∈ adj v

/-- There are no two edges with the same end nodes. -/
def Simple (n : Nat) (adj : Nat → List (Nat × Int)) : Prop := ∀ u, u < n → ((adj u).map (·.1)).Nodup

/-- All edges lead to nodes of the graph. -/
def InRange (n : Nat) (adj : Nat → List (Nat × Int)) : Prop := ∀ u, u < n → ∀ e ∈ adj u, e.1 < n

/-- The offsets are monotone. -/
def Offsets (n : Nat) (nodes : Nat → Nat) : Prop := ∀ u, u < n → nodes u ≤ nodes (u + 1)

/-! ## Lemmas -/

theorem mem_adj {nodes : Nat → Nat} {edges : Nat → Nat × Int} {u : Nat} {x : Nat × Int} :
    x ∈ adj nodes edges u ↔ ∃ e, nodes u ≤ e ∧ e < nodes (u + 1) ∧ edges e = x := by
  unfold adj
  rw [List.mem_map]
  constructor
  · rintro ⟨e, he, rfl⟩
    have := List.mem_range'_1.1 he
    exact ⟨e, this.1, by omega, rfl⟩
  · rintro ⟨e, h1, h2, rfl⟩
    exact ⟨e, List.mem_range'_1.2 ⟨h1, by omega⟩, rfl⟩

theorem eq_of_not_lt {a b : Nat × Int} (h1 : lt a b = false) (h2 : lt b a = false) : a = b := by
  obtain ⟨a1, a2⟩ := a
  obtain ⟨b1, b2⟩ := b
  simp only [lt, Bool.or_eq_false_iff, decide_eq_false_iff_not, Bool.and_eq_false_iff, beq_eq_false_iff_ne] at h1 h2
  obtain ⟨h1, h1'⟩ := h1
  obtain ⟨h2, h2'⟩ := h2
  obtain rfl : a1 = b1 := by omega
  have : a2 = b2 := by
    rcases h1' with h | h
    · exact absurd rfl h
    · rcases h2' with h' | h'
      · exact absurd rfl h'
      · omega
  rw [this]

theorem lt_self (x : Nat × Int) : lt x x = false := by simp [lt]

theorem lt_of_fst {a b : Nat × Int} (h : a.1 < b.1) : lt a b = true := by simp [lt, h]

theorem not_lt_of_fst {a b : Nat × Int} (h : b.1 < a.1) : lt a b = false := by
  simp only [lt, Bool.or_eq_false_iff, decide_eq_false_iff_not, Bool.and_eq_false_iff, beq_eq_false_iff_ne]
  exact ⟨by omega, Or.inl (by omega)⟩

theorem loop_sound (s : Nat → Nat × Int) (x : Nat × Int) : ∀ fuel f len, len ≤ fuel →
    f ≤ lowerBoundLoop s x fuel f len ∧ lowerBoundLoop s x fuel f len ≤ f + len ∧
    (lowerBoundLoop s x fuel f len < f + len → lt (s (lowerBoundLoop s x fuel f len)) x = false)
  | 0, f, len, h => by
    obtain rfl : len = 0 := by omega
    exact ⟨Nat.le_refl _, Nat.le_refl _, fun h => absurd h (Nat.lt_irrefl _)⟩
  | fuel + 1, f, len, h => by
    unfold lowerBoundLoop
    split
    · exact ⟨Nat.le_refl _, by omega, fun h => by omega⟩
    · rename_i h0
      have hdiv : len / 2 < len := Nat.div_lt_self (by omega) (by decide)
      split
      · obtain ⟨h1, h2, h3⟩ := loop_sound s x fuel (f + len / 2 + 1) (len - len / 2 - 1) (by omega)
        exact ⟨by omega, by omega, fun hl => h3 (by omega)⟩
      · rename_i hlt
        obtain ⟨h1, h2, h3⟩ := loop_sound s x fuel f (len / 2) (by omega)
        refine ⟨h1, by omega, fun hl => ?_⟩
        by_cases heq : lowerBoundLoop s x fuel f (len / 2) = f + len / 2
        · rw [heq]; simpa using hlt
        · exact h3 (by omega)

theorem loop_le (s : Nat → Nat × Int) (x : Nat × Int) (e : Nat) : ∀ fuel f len j, len ≤ fuel → f + len ≤ e → f ≤ j →
    j ≤ f + len → j < e → s j = x → (∀ a b, f ≤ a → a < b → b < e → (s a).1 < (s b).1) →
    lowerBoundLoop s x fuel f len ≤ j
  | 0, f, len, j, _, _, h, _, _, _, _ => h
  | fuel + 1, f, len, j, hf, he, h1, h2, hj, hx, hs => by
    unfold lowerBoundLoop
    split
    · exact h1
    · rename_i h0
      have hdiv : len / 2 < len := Nat.div_lt_self (by omega) (by decide)
      split
      · rename_i hlt
        have hmj : f + len / 2 < j := by
          by_contra hc
          by_cases heq : j = f + len / 2
          · rw [← heq, hx, lt_self] at hlt; exact absurd hlt (by decide)
          · have := hs j (f + len / 2) h1 (by omega) (by omega)
            rw [hx] at this
            rw [not_lt_of_fst this] at hlt; exact absurd hlt (by decide)
        exact loop_le s x e fuel _ _ j (by omega) (by omega) (by omega) (by omega) hj hx fun a b ha => hs a b (by omega)
      · rename_i hlt
        have hmj : j ≤ f + len / 2 := by
          by_contra hc
          have := hs (f + len / 2) j (by omega) (by omega) hj
          rw [hx] at this
          exact hlt (lt_of_fst this)
        exact loop_le s x e fuel f _ j (by omega) (by omega) h1 hmj hj hx hs

theorem find_sound {s : Nat → Nat × Int} {b e : Nat} {x : Nat × Int} (hbe : b ≤ e) (h : binaryFind s b e x ≠ e) :
    ∃ i, b ≤ i ∧ i < e ∧ s i = x := by
  obtain ⟨h1, h2, h3⟩ := loop_sound s x (e - b) b (e - b) (Nat.le_refl _)
  unfold binaryFind at h
  dsimp only at h
  split at h
  · rename_i hc
    have hlt : lowerBoundLoop s x (e - b) b (e - b) < b + (e - b) := by have := hc.1; omega
    exact ⟨_, h1, by omega, eq_of_not_lt (h3 hlt) hc.2⟩
  · exact absurd rfl h

theorem find_complete {s : Nat → Nat × Int} {b e i : Nat} (h1 : b ≤ i) (h2 : i < e)
    (hs : ∀ a c, b ≤ a → a < c → c < e → (s a).1 < (s c).1) : binaryFind s b e (s i) ≠ e := by
  obtain ⟨g1, g2, g3⟩ := loop_sound s (s i) (e - b) b (e - b) (Nat.le_refl _)
  have hle := loop_le s (s i) e (e - b) b (e - b) i (Nat.le_refl _) (by omega) h1 (by omega) h2 rfl hs
  have heq : lowerBoundLoop s (s i) (e - b) b (e - b) = i := by
    by_contra hc
    have := hs _ i g1 (by omega) h2
    have h3 := g3 (by omega)
    rw [lt_of_fst this] at h3; exact absurd h3 (by decide)
  unfold binaryFind
  dsimp only
  rw [heq, if_pos ⟨by omega, lt_self _⟩]
  omega

theorem first_accept {l : List Outcome} : first l = .accept ↔ ∀ o ∈ l, o = .accept := by
  induction l with
  | nil => simp [first]
  | cons o l ih => cases o <;> simp [first, ih]

theorem first_ne_undefined {l : List Outcome} (h : ∀ o ∈ l, o ≠ .undefined) : first l ≠ .undefined := by
  induction l with
  | nil => simp [first]
  | cons o l ih =>
    have := h o List.mem_cons_self
    cases o
    · exact ih fun x hx => h x (List.mem_cons_of_mem _ hx)
    · simp [first]
    · exact absurd rfl this

theorem parallel_accept {l : List Outcome} : parallel l = .accept ↔ ∀ o ∈ l, o = .accept := by
  unfold parallel
  constructor
  · intro h
    split at h
    · exact absurd h (by decide)
    · split at h
      · exact absurd h (by decide)
      · rename_i h1 h2
        intro o ho
        cases o
        · rfl
        · exact absurd ho h2
        · exact absurd ho h1
  · intro h
    rw [if_neg fun hc => absurd (h _ hc) (by decide), if_neg fun hc => absurd (h _ hc) (by decide)]

theorem multi_false {nodes : Nat → Nat} {edges : Nat → Nat × Int} {u : Nat} :
    multiEdge nodes edges u = false ↔ ∀ e, nodes u < e → e < nodes (u + 1) → (edges (e - 1)).1 ≠ (edges e).1 := by
  unfold multiEdge
  rw [List.any_eq_false]
  constructor
  · intro h e h1 h2
    have := h e (List.mem_range'_1.2 ⟨by omega, by omega⟩)
    simpa using this
  · intro h e he
    have := List.mem_range'_1.1 he
    have := h e (by omega) (by omega)
    simpa using this

theorem validate_accept {n : Nat} {nodes : Nat → Nat} {edges sorted : Nat → Nat × Int} :
    validate n nodes edges sorted = .accept ↔
      (∀ u, u < n → multiEdge nodes edges u = false) ∧
      ∀ u, u < n → ∀ e, nodes u ≤ e → e < nodes (u + 1) → checkEdge n nodes sorted u e = .accept := by
  unfold validate
  constructor
  · intro h
    split at h
    · exact absurd h (by decide)
    · rename_i hm
      rw [Bool.not_eq_true, List.any_eq_false] at hm
      refine ⟨fun u hu => by simpa using hm u (List.mem_range.2 hu), fun u hu e h1 h2 => ?_⟩
      have := parallel_accept.1 h _ (List.mem_map.2 ⟨u, List.mem_range.2 hu, rfl⟩)
      exact first_accept.1 this _ (List.mem_map.2 ⟨e, List.mem_range'_1.2 ⟨h1, by omega⟩, rfl⟩)
  · rintro ⟨h1, h2⟩
    rw [if_neg]
    · refine parallel_accept.2 fun o ho => ?_
      obtain ⟨u, hu, rfl⟩ := List.mem_map.1 ho
      refine first_accept.2 fun o ho => ?_
      obtain ⟨e, he, rfl⟩ := List.mem_map.1 ho
      have := List.mem_range'_1.1 he
      exact h2 u (List.mem_range.1 hu) e this.1 (by omega)
    · rw [Bool.not_eq_true, List.any_eq_false]
      intro u hu
      rw [h1 u (List.mem_range.1 hu)]; decide

theorem checkEdge_accept {n : Nat} {nodes : Nat → Nat} {sorted : Nat → Nat × Int} {u e : Nat} :
    checkEdge n nodes sorted u e = .accept ↔ (sorted e).1 < n ∧
      binaryFind sorted (nodes (sorted e).1) (nodes ((sorted e).1 + 1)) (u, (sorted e).2) ≠ nodes ((sorted e).1 + 1) := by
  unfold checkEdge
  dsimp only
  split
  · rename_i h; exact ⟨fun h => absurd h (by decide), fun hc => by omega⟩
  · split
    · rename_i h; exact ⟨fun h => absurd h (by decide), fun hc => absurd h hc.2⟩
    · rename_i h1 h2; exact ⟨fun _ => ⟨by omega, h2⟩, fun _ => rfl⟩

theorem sorted_mem {n : Nat} {nodes : Nat → Nat} {edges sorted : Nat → Nat × Int} (hs : Sorted n nodes edges sorted)
    {u : Nat} (hu : u < n) {x : Nat × Int} : x ∈ adj nodes sorted u ↔ x ∈ adj nodes edges u := (hs.perm u hu).mem_iff

/-- Targets of a neighbourhood without repetition are strictly increasing after sorting. -/
theorem sorted_strict {n : Nat} {nodes : Nat → Nat} {edges sorted : Nat → Nat × Int} (hs : Sorted n nodes edges sorted)
    {u : Nat} (hu : u < n) (hnd : ((adj nodes edges u).map (·.1)).Nodup) :
    ∀ a b, nodes u ≤ a → a < b → b < nodes (u + 1) → (sorted a).1 < (sorted b).1 := by
  have hnd' : ((adj nodes sorted u).map (·.1)).Nodup := ((hs.perm u hu).map (·.1)).nodup_iff.2 hnd
  have ho := hs.order u hu
  have h1 : (adj nodes sorted u).Pairwise fun a b => a.1 ≠ b.1 := by
    have := List.nodup_iff_pairwise_ne.1 hnd'
    exact List.pairwise_map.1 this
  have h2 : (adj nodes sorted u).Pairwise fun a b => a.1 < b.1 :=
    (List.pairwise_and_iff.2 ⟨ho, h1⟩).imp fun h => by omega
  intro a b ha hab hb
  have h3 := List.pairwise_iff_getElem.1 h2 (a - nodes u) (b - nodes u)
    (by simp only [adj, List.length_map, List.length_range']; omega)
    (by simp only [adj, List.length_map, List.length_range']; omega) (by omega)
  simp only [adj, List.getElem_map, List.getElem_range', Nat.one_mul] at h3
  rwa [show nodes u + (a - nodes u) = a by omega, show nodes u + (b - nodes u) = b by omega] at h3

/-! ## Theorems -/

/-- **C63 (what is accepted is undirected).**  If the validator returns, every edge leads to a node of the graph and
has a reverse edge with the same weight. -/
theorem C63_accepted_undirected (n : Nat) (nodes : Nat → Nat) (edges sorted : Nat → Nat × Int)
    (ho : Offsets n nodes) (hs : Sorted n nodes edges sorted) (h : validate n nodes edges sorted = .accept) :
    Undirected n (adj nodes edges) := by
  intro u hu v w hvw
  obtain ⟨e, h1, h2, h3⟩ := mem_adj.1 ((sorted_mem hs hu).2 hvw)
  obtain ⟨c1, c2⟩ := checkEdge_accept.1 ((validate_accept.1 h).2 u hu e h1 h2)
  rw [h3] at c1 c2
  obtain ⟨i, g1, g2, g3⟩ := find_sound (ho v c1) c2
  exact ⟨c1, (sorted_mem hs c1).1 (mem_adj.2 ⟨i, g1, g2, g3⟩)⟩

/-- **C63 (undirected simple graphs are accepted).**  The validator returns for every undirected graph without
repeated edges, however the sorting algorithm works. -/
theorem C63_simple_undirected_accepted (n : Nat) (nodes : Nat → Nat) (edges sorted : Nat → Nat × Int)
    (hs : Sorted n nodes edges sorted) (hu : Undirected n (adj nodes edges)) (hsim : Simple n (adj nodes edges)) :
    validate n nodes edges sorted = .accept := by
  refine validate_accept.2 ⟨fun u hu => multi_false.2 fun e h1 h2 heq => ?_, fun u hun e h1 h2 => ?_⟩
  · have h3 := List.pairwise_iff_getElem.1 (List.pairwise_map.1 (List.nodup_iff_pairwise_ne.1 (hsim u hu)))
      (e - 1 - nodes u) (e - nodes u) (by simp only [adj, List.length_map, List.length_range']; omega)
      (by simp only [adj, List.length_map, List.length_range']; omega) (by omega)
    simp only [adj, List.getElem_map, List.getElem_range', Nat.one_mul] at h3
    rw [show nodes u + (e - 1 - nodes u) = e - 1 by omega, show nodes u + (e - nodes u) = e by omega] at h3
    exact h3 heq
  · obtain ⟨g1, g2⟩ := hu u hun (sorted e).1 (sorted e).2 ((sorted_mem hs hun).1 (mem_adj.2 ⟨e, h1, h2, rfl⟩))
    obtain ⟨i, i1, i2, i3⟩ := mem_adj.1 ((sorted_mem hs g1).2 g2)
    refine checkEdge_accept.2 ⟨g1, ?_⟩
    rw [← i3]
    exact find_complete i1 i2 (sorted_strict hs g1 (hsim _ g1))

/-- **C63 (no crash).**  If all edges lead to nodes of the graph, the validator reads no memory outside of its arrays:
it accepts or it ends the program with an error message. -/
theorem C63_in_range_defined (n : Nat) (nodes : Nat → Nat) (edges sorted : Nat → Nat × Int)
    (hs : Sorted n nodes edges sorted) (hr : InRange n (adj nodes edges)) :
    validate n nodes edges sorted ≠ .undefined := by
  unfold validate
  split
  · decide
  · unfold parallel
    rw [if_neg]
    · split <;> decide
    · intro hc
      obtain ⟨u, hu, hcu⟩ := List.mem_map.1 hc
      refine first_ne_undefined (fun o ho => ?_) hcu
      obtain ⟨e, he, rfl⟩ := List.mem_map.1 ho
      have hmem := List.mem_range'_1.1 he
      have := hr u (List.mem_range.1 hu) (sorted e)
        ((sorted_mem hs (List.mem_range.1 hu)).1 (mem_adj.2 ⟨e, hmem.1, by omega, rfl⟩))
      unfold checkEdge
      dsimp only
      rw [if_neg (by omega)]
      split <;> decide

/-- **C63 (sorted input).**  If the neighbourhoods of the input are sorted, the validator accepts exactly the undirected
graphs without repeated edges, and ends the program with an error message for all others whose edges lead to nodes. -/
theorem C63_sorted_input_exact (n : Nat) (nodes : Nat → Nat) (edges sorted : Nat → Nat × Int)
    (ho : Offsets n nodes) (hs : Sorted n nodes edges sorted) (hr : InRange n (adj nodes edges))
    (hin : ∀ u, u < n → (adj nodes edges u).Pairwise fun a b => a.1 ≤ b.1) :
    (validate n nodes edges sorted = .accept ↔ Undirected n (adj nodes edges) ∧ Simple n (adj nodes edges)) ∧
    (validate n nodes edges sorted = .exit ↔ ¬ (Undirected n (adj nodes edges) ∧ Simple n (adj nodes edges))) := by
  have key : validate n nodes edges sorted = .accept ↔ Undirected n (adj nodes edges) ∧ Simple n (adj nodes edges) := by
    refine ⟨fun h => ⟨C63_accepted_undirected n nodes edges sorted ho hs h, fun u hu => ?_⟩,
      fun h => C63_simple_undirected_accepted n nodes edges sorted hs h.1 h.2⟩
    have hm := multi_false.1 ((validate_accept.1 h).1 u hu)
    have hle : ∀ a b, nodes u ≤ a → a ≤ b → b < nodes (u + 1) → (edges a).1 ≤ (edges b).1 := by
      intro a b ha hab hb
      by_cases heq : a = b
      · subst heq; exact Nat.le_refl _
      · have h3 := List.pairwise_iff_getElem.1 (hin u hu) (a - nodes u) (b - nodes u)
          (by simp only [adj, List.length_map, List.length_range']; omega)
          (by simp only [adj, List.length_map, List.length_range']; omega) (by omega)
        simp only [adj, List.getElem_map, List.getElem_range', Nat.one_mul] at h3
        rwa [show nodes u + (a - nodes u) = a by omega, show nodes u + (b - nodes u) = b by omega] at h3
    refine List.nodup_iff_pairwise_ne.2 (List.pairwise_map.2 (List.pairwise_iff_getElem.2 fun i j hi hj hij => ?_))
    simp only [adj, List.length_map, List.length_range'] at hi hj
    simp only [adj, List.getElem_map, List.getElem_range', Nat.one_mul]
    have h1 := hle (nodes u + i) (nodes u + j - 1) (by omega) (by omega) (by omega)
    have h2 := hle (nodes u + j - 1) (nodes u + j) (by omega) (by omega) (by omega)
    have h3 := hm (nodes u + j) (by omega) (by omega)
    omega
  refine ⟨key, ?_⟩
  rw [← key]
  have := C63_in_range_defined n nodes edges sorted hs hr
  cases h : validate n nodes edges sorted with
  | accept => simp
  | exit => simp
  | undefined => exact absurd h this

/-- **C63 (partial).**  The full property is: the validator accepts exactly the undirected graphs without repeated
edges and ends the program with an error message for all others.  This is proved for inputs without repeated edges
and with all edges in range; what is missing are repeated edges that are not next to each other in the input
(`C63_repeated_edge_accepted`) and edges to numbers that are no nodes (`C63_out_of_range_undefined`). -/
theorem C63_exact_partial (n : Nat) (nodes : Nat → Nat) (edges sorted : Nat → Nat × Int)
    (ho : Offsets n nodes) (hs : Sorted n nodes edges sorted) (hr : InRange n (adj nodes edges))
    (hsim : Simple n (adj nodes edges)) :
    (validate n nodes edges sorted = .accept ↔ Undirected n (adj nodes edges)) ∧
    (validate n nodes edges sorted = .exit ↔ ¬ Undirected n (adj nodes edges)) := by
  have key : validate n nodes edges sorted = .accept ↔ Undirected n (adj nodes edges) :=
    ⟨C63_accepted_undirected n nodes edges sorted ho hs,
      fun h => C63_simple_undirected_accepted n nodes edges sorted hs h hsim⟩
  refine ⟨key, ?_⟩
  rw [← key]
  have := C63_in_range_defined n nodes edges sorted hs hr
  cases h : validate n nodes edges sorted with
  | accept => simp
  | exit => simp
  | undefined => exact absurd h this

/-! ## Examples and counterexamples -/

/-- A triangle with a pendant node; the neighbourhoods are not sorted. -/
def exNodes (u : Nat) : Nat := [0, 3, 5, 7, 8].getD u 0
def exEdges (e : Nat) : Nat × Int := [(3, 7), (1, 2), (2, 3), (2, 4), (0, 2), (1, 4), (0, 3), (0, 7)].getD e (0, 0)
def exSorted (e : Nat) : Nat × Int := [(1, 2), (2, 3), (3, 7), (0, 2), (2, 4), (0, 3), (1, 4), (0, 7)].getD e (0, 0)

example : Offsets 4 exNodes ∧ Sorted 4 exNodes exEdges exSorted ∧
    Simple 4 (adj exNodes exEdges) ∧ InRange 4 (adj exNodes exEdges) ∧
    validate 4 exNodes exEdges exSorted = .accept := by
  refine ⟨?_, ⟨?_, ?_⟩, ?_, ?_, ?_⟩
  · unfold Offsets; decide
  · decide +kernel
  · decide +kernel
  · unfold Simple; decide +kernel
  · unfold InRange; decide +kernel
  · decide +kernel

/-- One weight is changed: the graph is rejected. -/
example : validate 4 exNodes exEdges (fun e => if e = 3 then (0, 1) else exSorted e) = .exit := by decide +kernel

/-- **C63, negative.**  Node 0 has two edges to node 1, with an edge to node 2 between them; the validator accepts, as
it looks for repeated edges in the array that was not sorted. -/
theorem C63_repeated_edge_accepted :
    ∃ (n : Nat) (nodes : Nat → Nat) (edges sorted : Nat → Nat × Int), Offsets n nodes ∧
      Sorted n nodes edges sorted ∧ InRange n (adj nodes edges) ∧ ¬ Simple n (adj nodes edges) ∧
      validate n nodes edges sorted = .accept := by
  refine ⟨3, fun u => [0, 3, 4, 5].getD u 0, fun e => [(1, 1), (2, 1), (1, 1), (0, 1), (0, 1)].getD e (0, 0),
    fun e => [(1, 1), (1, 1), (2, 1), (0, 1), (0, 1)].getD e (0, 0), ?_, ⟨?_, ?_⟩, ?_, ?_, ?_⟩
  · unfold Offsets; decide
  · decide +kernel
  · decide +kernel
  · unfold InRange; decide +kernel
  · unfold Simple; decide +kernel
  · decide +kernel

/-- **C63, negative.**  The same graph is directed in the sense of multigraphs: node 0 has two edges to node 1, node 1
has one edge to node 0, so the sums of the weights differ in the two directions. -/
theorem C63_accepted_asymmetric :
    ∃ (n : Nat) (nodes : Nat → Nat) (edges sorted : Nat → Nat × Int), Offsets n nodes ∧
      Sorted n nodes edges sorted ∧ validate n nodes edges sorted = .accept ∧
      (((adj nodes edges 0).filter (·.1 = 1)).map (·.2)).sum ≠ (((adj nodes edges 1).filter (·.1 = 0)).map (·.2)).sum := by
  refine ⟨3, fun u => [0, 3, 4, 5].getD u 0, fun e => [(1, 1), (2, 1), (1, 1), (0, 1), (0, 1)].getD e (0, 0),
    fun e => [(1, 1), (1, 1), (2, 1), (0, 1), (0, 1)].getD e (0, 0), ?_, ⟨?_, ?_⟩, ?_, ?_⟩
  · unfold Offsets; decide
  · decide +kernel
  · decide +kernel
  · decide +kernel
  · decide +kernel

/-- **C63, negative.**  Edges from a node to itself are accepted. -/
theorem C63_self_loop_accepted :
    ∃ (n : Nat) (nodes : Nat → Nat) (edges sorted : Nat → Nat × Int), Offsets n nodes ∧
      Sorted n nodes edges sorted ∧ (0, 5) ∈ adj nodes edges 0 ∧ validate n nodes edges sorted = .accept := by
  refine ⟨2, fun u => [0, 2, 3].getD u 0, fun e => [(0, 5), (1, 1), (0, 1)].getD e (0, 0),
    fun e => [(0, 5), (1, 1), (0, 1)].getD e (0, 0), ?_, ⟨?_, ?_⟩, ?_, ?_⟩
  · unfold Offsets; decide
  · decide +kernel
  · decide +kernel
  · decide +kernel
  · decide +kernel

/-- **C63, negative.**  An edge to a number that is no node is not reported: the validator reads outside of its arrays,
for every graph that has such an edge but no other defect. -/
theorem C63_out_of_range_undefined (n : Nat) (nodes : Nat → Nat) (edges sorted : Nat → Nat × Int)
    (hs : Sorted n nodes edges sorted) (hsim : Simple n (adj nodes edges))
    (hrev : ∀ u, u < n → ∀ v w, (v, w) ∈ adj nodes edges u → v < n → (u, w) ∈ adj nodes edges v)
    (hbad : ¬ InRange n (adj nodes edges)) : validate n nodes edges sorted = .undefined := by
  unfold validate
  rw [if_neg]
  · obtain ⟨u, hu, x, hx, hxn⟩ : ∃ u, u < n ∧ ∃ x ∈ adj nodes edges u, ¬ x.1 < n := by
      unfold InRange at hbad
      simpa only [not_forall, exists_prop] using hbad
    unfold parallel
    rw [if_pos]
    refine List.mem_map.2 ⟨u, List.mem_range.2 hu, ?_⟩
    obtain ⟨i, i1, i2, i3⟩ := mem_adj.1 ((sorted_mem hs hu).2 hx)
    have hall : ∀ o ∈ (List.range' (nodes u) (nodes (u + 1) - nodes u)).map (checkEdge n nodes sorted u), o ≠ .exit := by
      intro o ho
      obtain ⟨e, he, rfl⟩ := List.mem_map.1 ho
      have hmem := List.mem_range'_1.1 he
      unfold checkEdge
      dsimp only
      split
      · decide
      · rename_i hn
        have hn : (sorted e).1 < n := by omega
        have hr := hrev u hu (sorted e).1 (sorted e).2
          ((sorted_mem hs hu).1 (mem_adj.2 ⟨e, hmem.1, by omega, rfl⟩)) hn
        obtain ⟨j, j1, j2, j3⟩ := mem_adj.1 ((sorted_mem hs hn).2 hr)
        rw [if_neg]
        · decide
        · rw [← j3]
          exact find_complete j1 j2 (sorted_strict hs hn (hsim _ hn))
    have hund : Outcome.undefined ∈ (List.range' (nodes u) (nodes (u + 1) - nodes u)).map (checkEdge n nodes sorted u) := by
      refine List.mem_map.2 ⟨i, List.mem_range'_1.2 ⟨i1, by omega⟩, ?_⟩
      unfold checkEdge
      dsimp only
      rw [i3, if_pos (by omega)]
    unfold checkNode
    generalize (List.range' (nodes u) (nodes (u + 1) - nodes u)).map (checkEdge n nodes sorted u) = l at hall hund
    induction l with
    | nil => exact absurd hund List.not_mem_nil
    | cons o l ih =>
      cases o with
      | accept =>
        exact ih (fun x hx => hall x (List.mem_cons_of_mem _ hx)) ((List.mem_cons.1 hund).resolve_left (by decide))
      | exit => exact absurd rfl (hall _ List.mem_cons_self)
      | undefined => rfl
  · rw [Bool.not_eq_true, List.any_eq_false]
    intro u hu
    rw [multi_false.2 fun e h1 h2 heq => ?_]
    · decide
    · have h3 := List.pairwise_iff_getElem.1 (List.pairwise_map.1 (List.nodup_iff_pairwise_ne.1
        (hsim u (List.mem_range.1 hu)))) (e - 1 - nodes u) (e - nodes u)
        (by simp only [adj, List.length_map, List.length_range']; omega)
        (by simp only [adj, List.length_map, List.length_range']; omega) (by omega)
      simp only [adj, List.getElem_map, List.getElem_range', Nat.one_mul] at h3
      rw [show nodes u + (e - 1 - nodes u) = e - 1 by omega, show nodes u + (e - nodes u) = e by omega] at h3
      exact h3 heq

example : ¬ InRange 2 (adj (fun u => [0, 2, 3].getD u 0) fun e => [(1, 1), (7, 1), (0, 1)].getD e (0, 0)) ∧
    validate 2 (fun u => [0, 2, 3].getD u 0) (fun e => [(1, 1), (7, 1), (0, 1)].getD e (0, 0))
      (fun e => [(1, 1), (7, 1), (0, 1)].getD e (0, 0)) = .undefined := by
  refine ⟨?_, ?_⟩
  · unfold InRange; decide +kernel
  · decide +kernel

end Verif.InputCheck
