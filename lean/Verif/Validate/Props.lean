import Verif.Validate.Model

/-!
# C27: which graphs are accepted by the validation
-/

namespace Verif.Validate

/-! ## Specification -/

/-- The first edge of node `u`. -/
def first (xadj : List Nat) (u : Nat) : Nat := xadj.getD u 0

/-- The target of edge `e`. -/
def target (adjncy : List Nat) (e : Nat) : Nat := adjncy.getD e 0

/-- The weight of edge `e`; 1 without edge weights. -/
def weight (adjwgt : List Int) (e : Nat) : Int := if adjwgt = [] then 1 else adjwgt.getD e 0

/-- Edge `e` belongs to node `u`. -/
def IsEdgeOf (xadj : List Nat) (u e : Nat) : Prop := first xadj u ≤ e ∧ e < first xadj (u + 1)

structure WellFormed (n : Nat) (xadj adjncy : List Nat) (vwgt adjwgt : List Int) : Prop where
  nodes : n + 1 ≤ xadj.length
  nodeWeights : vwgt = [] ∨ n ≤ vwgt.length
  edgeWeights : adjwgt = [] ∨ first xadj n ≤ adjwgt.length
  monotone : ∀ u, u < n → first xadj u ≤ first xadj (u + 1)
  targets : ∀ u e, u < n → IsEdgeOf xadj u e → target adjncy e < n
  noLoops : ∀ u e, u < n → IsEdgeOf xadj u e → target adjncy e ≠ u
  reverse : ∀ u e, u < n → IsEdgeOf xadj u e → ∃ e', IsEdgeOf xadj (target adjncy e) e' ∧ target adjncy e' = u ∧
    weight adjwgt e' = weight adjwgt e

/-! ## Loops -/

theorem forEach_go {α : Type} {f : α → Option Out} : ∀ {l : List α}, forEach f l = some .go ↔ ∀ x ∈ l, f x = some .go
  | [] => ⟨fun _ x hx => absurd hx List.not_mem_nil, fun _ => rfl⟩
  | a :: l => by
    have ih := forEach_go (f := f) (l := l)
    rw [forEach]
    cases hfa : f a with
    | none => exact ⟨(fun h => nomatch h), fun h => by rw [h a List.mem_cons_self] at hfa; exact nomatch hfa⟩
    | some o =>
      cases o with
      | reject =>
        exact ⟨(fun h => nomatch h), fun h => by rw [h a List.mem_cons_self] at hfa; exact nomatch hfa⟩
      | go =>
        refine ih.trans ⟨fun h x hx => ?_, fun h x hx => h x (List.mem_cons_of_mem _ hx)⟩
        rcases List.mem_cons.1 hx with rfl | hx
        · exact hfa
        · exact h x hx

theorem forEach_defined {α : Type} {f : α → Option Out} : ∀ {l : List α}, (∀ x ∈ l, f x ≠ none) → forEach f l ≠ none
  | [], _ => fun h => nomatch h
  | a :: l, hl => by
    have ih := forEach_defined (f := f) (l := l) fun x hx => hl x (List.mem_cons_of_mem _ hx)
    rw [forEach]
    cases hfa : f a with
    | none => exact absurd hfa (hl a List.mem_cons_self)
    | some o =>
      cases o with
      | reject => exact fun h => nomatch h
      | go => exact ih

theorem get?_getD {α : Type} {l : List α} {i : Nat} (h : i < l.length) (d : α) : l[i]? = some (l.getD i d) := by
  rw [List.getD_eq_getElem?_getD, List.getElem?_eq_getElem h]; rfl

section
variable {n m : Nat} {adjncy : List Nat} {adjwgt : List Int}

/-- One step of the search for the reverse edge when all reads are in bounds. -/
theorem findReverse_cons (hadj : m ≤ adjncy.length) (hwgt : adjwgt = [] ∨ m ≤ adjwgt.length) {u e e' : Nat}
    (he : e < m) (he' : e' < m) (l : List Nat) :
    findReverse n m adjncy adjwgt u e (e' :: l) =
      if target adjncy e' ≥ n then some .reject
      else if u ≠ target adjncy e' then findReverse n m adjncy adjwgt u e l
      else if weight adjwgt e' = weight adjwgt e then some .found else some .reject := by
  rw [findReverse, if_neg (by omega), get?_getD (by omega) 0]
  show (if target adjncy e' ≥ n then _ else _) = _
  by_cases h1 : target adjncy e' ≥ n
  · rw [if_pos h1, if_pos h1]
  · rw [if_neg h1, if_neg h1]
    by_cases h2 : u ≠ target adjncy e'
    · rw [if_pos (show u ≠ adjncy.getD e' 0 from h2), if_pos h2]
    · rw [if_neg (show ¬ u ≠ adjncy.getD e' 0 from h2), if_neg h2]
      unfold weight
      by_cases h3 : adjwgt = []
      · simp [h3]
      · have hl := hwgt.resolve_left h3
        rw [if_pos h3, get?_getD (by omega) 0, get?_getD (by omega) 0]
        simp only [h3, if_false]
        by_cases h4 : adjwgt.getD e 0 = adjwgt.getD e' 0
        · rw [if_neg (by simpa using h4), if_pos h4.symm]
        · rw [if_pos (by simpa using h4), if_neg (Ne.symm h4)]

theorem findReverse_spec (hadj : m ≤ adjncy.length) (hwgt : adjwgt = [] ∨ m ≤ adjwgt.length) {u e : Nat} (he : e < m) :
    ∀ l : List Nat, (∀ x ∈ l, x < m) →
    findReverse n m adjncy adjwgt u e l ≠ none ∧
    (findReverse n m adjncy adjwgt u e l = some .found →
      ∃ e' ∈ l, target adjncy e' = u ∧ weight adjwgt e' = weight adjwgt e) ∧
    ((∀ x ∈ l, target adjncy x < n) → (∃ e' ∈ l, target adjncy e' = u) →
      (∀ x ∈ l, target adjncy x = u → weight adjwgt x = weight adjwgt e) →
      findReverse n m adjncy adjwgt u e l = some .found)
  | [], _ => ⟨(fun h => nomatch h), (fun h => nomatch h), fun _ ⟨e', h, _⟩ => absurd h List.not_mem_nil⟩
  | e' :: l, hl => by
    obtain ⟨i1, i2, i3⟩ := findReverse_spec hadj hwgt he l fun x hx => hl x (List.mem_cons_of_mem _ hx)
    rw [findReverse_cons hadj hwgt he (hl e' List.mem_cons_self)]
    by_cases h1 : target adjncy e' ≥ n
    · rw [if_pos h1]
      refine ⟨(fun h => nomatch h), (fun h => nomatch h), fun h _ _ => ?_⟩
      have := h e' List.mem_cons_self
      omega
    rw [if_neg h1]
    by_cases h2 : u ≠ target adjncy e'
    · rw [if_pos h2]
      refine ⟨i1, fun h => ?_, fun a b c => i3 (fun x hx => a x (List.mem_cons_of_mem _ hx)) ?_
        fun x hx => c x (List.mem_cons_of_mem _ hx)⟩
      · obtain ⟨x, hx, h⟩ := i2 h
        exact ⟨x, List.mem_cons_of_mem _ hx, h⟩
      · obtain ⟨x, hx, h⟩ := b
        rcases List.mem_cons.1 hx with rfl | hx
        · exact absurd h.symm h2
        · exact ⟨x, hx, h⟩
    rw [if_neg h2]
    have h2 : target adjncy e' = u := by omega
    by_cases h3 : weight adjwgt e' = weight adjwgt e
    · rw [if_pos h3]
      exact ⟨(fun h => nomatch h), fun _ => ⟨e', List.mem_cons_self, h2, h3⟩, fun _ _ _ => rfl⟩
    · rw [if_neg h3]
      exact ⟨(fun h => nomatch h), (fun h => nomatch h), fun _ _ c => absurd (c e' List.mem_cons_self h2) h3⟩

end

section
variable {n m : Nat} {xadj adjncy : List Nat} {adjwgt : List Int}

theorem first_le (hmono : ∀ u, u < n → first xadj u ≤ first xadj (u + 1)) : ∀ u, u ≤ n → first xadj u ≤ first xadj n := by
  intro u hu
  obtain ⟨d, hd⟩ : ∃ d, n = u + d := ⟨n - u, by omega⟩
  subst hd
  clear hu
  have : ∀ k, k ≤ d → first xadj u ≤ first xadj (u + k) := by
    intro k
    induction k with
    | zero => intro _; exact Nat.le_refl _
    | succ k ih =>
      intro hk
      have := ih (by omega)
      have := hmono (u + k) (by omega)
      rw [← Nat.add_assoc]
      omega
  exact this d (Nat.le_refl _)

theorem checkEdge_eq (hm : m = first xadj n) (hx : n + 1 ≤ xadj.length) (hadj : m ≤ adjncy.length) {u e : Nat}
    (he : e < m) : checkEdge n m xadj adjncy adjwgt true 0 u e =
      if target adjncy e ≥ n then some .reject
      else if u = target adjncy e then some .reject
      else match findReverse n m adjncy adjwgt u e (List.range' (first xadj (target adjncy e))
          (first xadj (target adjncy e + 1) - first xadj (target adjncy e))) with
        | none => none
        | some .reject => some .reject
        | some .found => some .go
        | some .notFound => some .reject := by
  rw [checkEdge, if_neg (by omega), get?_getD (by omega) 0]
  show (if target adjncy e ≥ n then _ else _) = _
  by_cases h1 : target adjncy e ≥ n
  · rw [if_pos h1, if_pos h1]
  rw [if_neg h1, if_neg h1]
  by_cases h2 : u = target adjncy e
  · rw [if_pos (show u = adjncy.getD e 0 from h2), if_pos h2]
  rw [if_neg (show ¬ u = adjncy.getD e 0 from h2), if_neg h2]
  have a1 : xadj[target adjncy e]? = some (first xadj (target adjncy e)) := get?_getD (by omega) 0
  have a2 : xadj[target adjncy e + 1]? = some (first xadj (target adjncy e + 1)) := get?_getD (by omega) 0
  have h3 : target adjncy e < n := by omega
  unfold target at *
  simp only [a1, a2]
  cases findReverse n m adjncy adjwgt u e (List.range' (first xadj (adjncy.getD e 0))
      (first xadj (adjncy.getD e 0 + 1) - first xadj (adjncy.getD e 0))) with
  | none => rfl
  | some r =>
    cases r with
    | notFound => rw [decide_eq_true (show adjncy.getD e 0 < n - 0 from h3)]; rfl
    | _ => rfl

theorem mem_range'_edge {u e : Nat} :
    e ∈ List.range' (first xadj u) (first xadj (u + 1) - first xadj u) ↔ IsEdgeOf xadj u e := by
  rw [List.mem_range'_1]
  unfold IsEdgeOf
  omega

theorem checkEdge_spec (hm : m = first xadj n) (hx : n + 1 ≤ xadj.length) (hadj : m ≤ adjncy.length)
    (hwgt : adjwgt = [] ∨ m ≤ adjwgt.length) (hmono : ∀ u, u < n → first xadj u ≤ first xadj (u + 1)) {u e : Nat}
    (hu : u < n) (he : IsEdgeOf xadj u e) :
    checkEdge n m xadj adjncy adjwgt true 0 u e ≠ none ∧
    (checkEdge n m xadj adjncy adjwgt true 0 u e = some .go →
      target adjncy e < n ∧ target adjncy e ≠ u ∧
      ∃ e', IsEdgeOf xadj (target adjncy e) e' ∧ target adjncy e' = u ∧ weight adjwgt e' = weight adjwgt e) ∧
    (target adjncy e < n → target adjncy e ≠ u →
      (∃ e', IsEdgeOf xadj (target adjncy e) e' ∧ target adjncy e' = u) →
      (∀ e', IsEdgeOf xadj (target adjncy e) e' → target adjncy e' < n) →
      (∀ e', IsEdgeOf xadj (target adjncy e) e' → target adjncy e' = u → weight adjwgt e' = weight adjwgt e) →
      checkEdge n m xadj adjncy adjwgt true 0 u e = some .go) := by
  have hem : e < m := by
    have := first_le hmono (u + 1) (by omega)
    have := he.2
    omega
  rw [checkEdge_eq hm hx hadj hem]
  by_cases h1 : target adjncy e ≥ n
  · rw [if_pos h1]
    exact ⟨(fun h => nomatch h), (fun h => nomatch h), fun h => by omega⟩
  rw [if_neg h1]
  by_cases h2 : u = target adjncy e
  · rw [if_pos h2]
    exact ⟨(fun h => nomatch h), (fun h => nomatch h), fun _ h => absurd h2.symm h⟩
  rw [if_neg h2]
  have hl : ∀ x ∈ List.range' (first xadj (target adjncy e)) (first xadj (target adjncy e + 1) - first xadj (target adjncy e)),
      x < m := by
    intro x hx'
    have := (mem_range'_edge.1 hx').2
    have := first_le hmono (target adjncy e + 1) (by omega)
    omega
  obtain ⟨i1, i2, i3⟩ := findReverse_spec (n := n) (u := u) hadj hwgt hem _ hl
  cases hf : findReverse n m adjncy adjwgt u e (List.range' (first xadj (target adjncy e))
      (first xadj (target adjncy e + 1) - first xadj (target adjncy e))) with
  | none => exact absurd hf i1
  | some r =>
    cases r with
    | reject =>
      refine ⟨(fun h => nomatch h), (fun h => nomatch h), fun _ _ ⟨e', a, b⟩ c d => ?_⟩
      have := i3 (fun x hx' => c x (mem_range'_edge.1 hx')) ⟨e', mem_range'_edge.2 a, b⟩
        fun x hx' => d x (mem_range'_edge.1 hx')
      rw [hf] at this
      exact nomatch this
    | notFound =>
      refine ⟨(fun h => nomatch h), (fun h => nomatch h), fun _ _ ⟨e', a, b⟩ c d => ?_⟩
      have := i3 (fun x hx' => c x (mem_range'_edge.1 hx')) ⟨e', mem_range'_edge.2 a, b⟩
        fun x hx' => d x (mem_range'_edge.1 hx')
      rw [hf] at this
      exact nomatch this
    | found =>
      refine ⟨(fun h => nomatch h), fun _ => ⟨by omega, Ne.symm h2, ?_⟩, fun _ _ _ _ _ => rfl⟩
      obtain ⟨e', hmem, h3, h4⟩ := i2 hf
      exact ⟨e', mem_range'_edge.1 hmem, h3, h4⟩

end

/-- What the checks before the loop over the edges establish. -/
theorem validate_eq (n : Nat) (xadj adjncy : List Nat) (vwgt adjwgt : List Int) :
    (validate n xadj adjncy vwgt adjwgt true 0 = some false ∧
      ¬ (n + 1 ≤ xadj.length ∧ (vwgt = [] ∨ n ≤ vwgt.length) ∧ (adjwgt = [] ∨ first xadj n ≤ adjwgt.length) ∧
        ∀ u, u < n → first xadj u ≤ first xadj (u + 1))) ∨
    ((n + 1 ≤ xadj.length ∧ (vwgt = [] ∨ n ≤ vwgt.length) ∧ (adjwgt = [] ∨ first xadj n ≤ adjwgt.length) ∧
        ∀ u, u < n → first xadj u ≤ first xadj (u + 1)) ∧
      validate n xadj adjncy vwgt adjwgt true 0 =
        (forEach (fun u => forEach (checkEdge n (first xadj n) xadj adjncy adjwgt true 0 u)
          (List.range' (first xadj u) (first xadj (u + 1) - first xadj u))) (List.range n)).map fun o => decide (o = .go)) := by
  unfold validate
  by_cases h1 : xadj.length < n + 1
  · rw [if_pos h1]; exact Or.inl ⟨rfl, fun h => by omega⟩
  rw [if_neg h1]
  by_cases h2 : vwgt ≠ [] ∧ vwgt.length < n
  · rw [if_pos h2]
    refine Or.inl ⟨rfl, fun h => ?_⟩
    rcases h.2.1 with h3 | h3
    · exact h2.1 h3
    · omega
  rw [if_neg h2, get?_getD (show n < xadj.length by omega) 0]
  show (if adjwgt ≠ [] ∧ adjwgt.length < first xadj n then _ else _) = _ ∧ _ ∨ _ ∧ (if adjwgt ≠ [] ∧ adjwgt.length < first xadj n then _ else _) = _
  by_cases h3 : adjwgt ≠ [] ∧ adjwgt.length < first xadj n
  · rw [if_pos h3]
    refine Or.inl ⟨rfl, fun h => ?_⟩
    rcases h.2.2.1 with h4 | h4
    · exact h3.1 h4
    · omega
  rw [if_neg h3]
  have hmon : ∀ u, u < n → checkMonotone xadj u = some (if first xadj u > first xadj (u + 1) then .reject else .go) := by
    intro u hu
    unfold checkMonotone
    rw [get?_getD (show u < xadj.length by omega) 0, get?_getD (show u + 1 < xadj.length by omega) 0]; rfl
  have hnode : ∀ u ∈ List.range n, checkNode n (first xadj n) xadj adjncy adjwgt true 0 u =
      forEach (checkEdge n (first xadj n) xadj adjncy adjwgt true 0 u)
        (List.range' (first xadj u) (first xadj (u + 1) - first xadj u)) := by
    intro u hu
    have hu := List.mem_range.1 hu
    unfold checkNode
    rw [get?_getD (show u < xadj.length by omega) 0, get?_getD (show u + 1 < xadj.length by omega) 0]; rfl
  have hcongr : ∀ l : List Nat, (∀ u ∈ l, u ∈ List.range n) →
      forEach (checkNode n (first xadj n) xadj adjncy adjwgt true 0) l =
      forEach (fun u => forEach (checkEdge n (first xadj n) xadj adjncy adjwgt true 0 u)
          (List.range' (first xadj u) (first xadj (u + 1) - first xadj u))) l := by
    intro l
    induction l with
    | nil => intro _; rfl
    | cons a l ih =>
      intro h
      rw [forEach, forEach, hnode a (h a List.mem_cons_self), ih fun u hu => h u (List.mem_cons_of_mem _ hu)]
  have hc := hcongr _ fun u hu => hu
  unfold first at hc hcongr
  rw [hc]
  cases hf : forEach (checkMonotone xadj) (List.range n) with
  | none =>
    refine absurd hf (forEach_defined fun u hu => ?_)
    rw [hmon u (List.mem_range.1 hu)]; exact fun h => nomatch h
  | some o =>
    cases o with
    | reject =>
      refine Or.inl ⟨rfl, fun h => ?_⟩
      have : forEach (checkMonotone xadj) (List.range n) = some .go := forEach_go.2 fun u hu => by
        have := h.2.2.2 u (List.mem_range.1 hu)
        rw [hmon u (List.mem_range.1 hu), if_neg (by omega)]
      rw [hf] at this
      exact nomatch this
    | go =>
      refine Or.inr ⟨⟨by omega, ?_, ?_, ?_⟩, ?_⟩
      · by_cases h4 : vwgt = []
        · exact Or.inl h4
        · right
          refine Nat.le_of_not_lt fun h5 => ?_
          exact h2 ⟨h4, by omega⟩
      · by_cases h4 : adjwgt = []
        · exact Or.inl h4
        · right
          refine Nat.le_of_not_lt fun h5 => ?_
          exact h3 ⟨h4, by omega⟩
      · intro u hu
        have := forEach_go.1 hf u (List.mem_range.2 hu)
        rw [hmon u hu] at this
        refine Nat.le_of_not_lt fun hlt => ?_
        rw [if_pos (by omega)] at this
        exact nomatch this
      · have hfin : ∀ x : Option Out, (match x with
            | none => none
            | some .reject => some false
            | some .go => some true) = x.map fun o => decide (o = .go) := by
          intro x
          cases x with
          | none => rfl
          | some o => cases o <;> rfl
        exact hfin _

/-- **C27, soundness.**  For every pair of arrays such that the edge array has at least `xadj[n]` entries (which the
function does not check), the validation terminates without reading outside the arrays, and an accepted graph is
well-formed. -/
theorem C27_accepts_only_well_formed (n : Nat) (xadj adjncy : List Nat) (vwgt adjwgt : List Int)
    (hadj : first xadj n ≤ adjncy.length) :
    validate n xadj adjncy vwgt adjwgt true 0 ≠ none ∧
    (validate n xadj adjncy vwgt adjwgt true 0 = some true → WellFormed n xadj adjncy vwgt adjwgt) := by
  rcases validate_eq n xadj adjncy vwgt adjwgt with ⟨h, _⟩ | ⟨⟨h1, h2, h3, h4⟩, h⟩
  · rw [h]; exact ⟨(fun h => nomatch h), (fun h => nomatch h)⟩
  · rw [h]
    have hspec := fun u e hu he => checkEdge_spec (n := n) (u := u) (e := e) rfl h1 hadj h3 h4 hu he
    constructor
    · intro hn
      refine forEach_defined (fun u hu => forEach_defined fun e he => ?_) (Option.map_eq_none_iff.1 hn)
      exact (hspec u e (List.mem_range.1 hu) (mem_range'_edge.1 he)).1
    · intro ht
      have hgo : forEach (fun u => forEach (checkEdge n (first xadj n) xadj adjncy adjwgt true 0 u)
          (List.range' (first xadj u) (first xadj (u + 1) - first xadj u))) (List.range n) = some .go := by
        obtain ⟨o, ho, hd⟩ := Option.map_eq_some_iff.1 ht
        rw [ho, of_decide_eq_true hd]
      have hall : ∀ u e, u < n → IsEdgeOf xadj u e → _ := fun u e hu he =>
        (hspec u e hu he).2.1 (forEach_go.1 (forEach_go.1 hgo u (List.mem_range.2 hu)) e (mem_range'_edge.2 he))
      exact ⟨h1, h2, h3, h4, fun u e hu he => (hall u e hu he).1, fun u e hu he => (hall u e hu he).2.1,
        fun u e hu he => (hall u e hu he).2.2⟩

/-- **C27, completeness.**  A well-formed graph is accepted if edges between the same two nodes have the same weight,
in particular if it has no parallel edges or no edge weights.  (Otherwise it may be rejected, see
`C27_parallel_edges_rejected`.) -/
theorem C27_accepts_well_formed_partial (n : Nat) (xadj adjncy : List Nat) (vwgt adjwgt : List Int)
    (hadj : first xadj n ≤ adjncy.length) (hwf : WellFormed n xadj adjncy vwgt adjwgt)
    (hpar : ∀ u e e', u < n → IsEdgeOf xadj u e → IsEdgeOf xadj u e' → target adjncy e = target adjncy e' →
      weight adjwgt e = weight adjwgt e') :
    validate n xadj adjncy vwgt adjwgt true 0 = some true := by
  rcases validate_eq n xadj adjncy vwgt adjwgt with ⟨_, h⟩ | ⟨⟨h1, h2, h3, h4⟩, h⟩
  · exact absurd ⟨hwf.nodes, hwf.nodeWeights, hwf.edgeWeights, hwf.monotone⟩ h
  · rw [h]
    have hgo : forEach (fun u => forEach (checkEdge n (first xadj n) xadj adjncy adjwgt true 0 u)
        (List.range' (first xadj u) (first xadj (u + 1) - first xadj u))) (List.range n) = some .go := by
      refine forEach_go.2 fun u hu => forEach_go.2 fun e he => ?_
      have hu := List.mem_range.1 hu
      have he := mem_range'_edge.1 he
      obtain ⟨e', a, b, c⟩ := hwf.reverse u e hu he
      have ht := hwf.targets u e hu he
      refine (checkEdge_spec rfl h1 hadj h3 h4 hu he).2.2 ht (hwf.noLoops u e hu he) ⟨e', a, b⟩
        (fun x hx => hwf.targets _ x ht hx) fun x hx hxu => ?_
      rw [hpar _ x e' ht hx a (by rw [hxu, b]), c]
    rw [hgo]; rfl

/-- **C27, exact characterisation without edge weights.** -/
theorem C27_unweighted_iff (n : Nat) (xadj adjncy : List Nat) (vwgt : List Int)
    (hadj : first xadj n ≤ adjncy.length) :
    validate n xadj adjncy vwgt [] true 0 = some true ↔ WellFormed n xadj adjncy vwgt [] :=
  ⟨(C27_accepts_only_well_formed n xadj adjncy vwgt [] hadj).2,
    fun h => C27_accepts_well_formed_partial n xadj adjncy vwgt [] hadj h fun _ _ _ _ _ _ _ => rfl⟩

/-- **C27, exact characterisation for graphs without parallel edges.** -/
theorem C27_simple_iff (n : Nat) (xadj adjncy : List Nat) (vwgt adjwgt : List Int)
    (hadj : first xadj n ≤ adjncy.length)
    (hpar : ∀ u e e', u < n → IsEdgeOf xadj u e → IsEdgeOf xadj u e' → target adjncy e = target adjncy e' → e = e') :
    validate n xadj adjncy vwgt adjwgt true 0 = some true ↔ WellFormed n xadj adjncy vwgt adjwgt :=
  ⟨(C27_accepts_only_well_formed n xadj adjncy vwgt adjwgt hadj).2,
    fun h => C27_accepts_well_formed_partial n xadj adjncy vwgt adjwgt hadj h
      fun u e e' hu he he' ht => by rw [hpar u e e' hu he he' ht]⟩

/-- **C27, negative.**  Two parallel edges of weights 1 and 2 between the same nodes, stored in both directions, are
well-formed but rejected: only the first edge back is compared. -/
theorem C27_parallel_edges_rejected :
    validate 2 [0, 2, 4] [1, 1, 0, 0] [] [1, 2, 1, 2] true 0 = some false ∧
    WellFormed 2 [0, 2, 4] [1, 1, 0, 0] [] [1, 2, 1, 2] := by
  refine ⟨by decide, ⟨by decide, Or.inl rfl, Or.inr (by decide), by decide, ?_, ?_, ?_⟩⟩
  · intro u e hu he
    obtain ⟨h1, h2⟩ := he
    have : u = 0 ∨ u = 1 := by omega
    rcases this with rfl | rfl
    · have : e = 0 ∨ e = 1 := by simp [first] at h1 h2; omega
      rcases this with rfl | rfl <;> decide
    · have : e = 2 ∨ e = 3 := by simp [first] at h1 h2; omega
      rcases this with rfl | rfl <;> decide
  · intro u e hu he
    obtain ⟨h1, h2⟩ := he
    have : u = 0 ∨ u = 1 := by omega
    rcases this with rfl | rfl
    · have : e = 0 ∨ e = 1 := by simp [first] at h1 h2; omega
      rcases this with rfl | rfl <;> decide
    · have : e = 2 ∨ e = 3 := by simp [first] at h1 h2; omega
      rcases this with rfl | rfl <;> decide
  · intro u e hu he
    obtain ⟨h1, h2⟩ := he
    have : u = 0 ∨ u = 1 := by omega
    rcases this with rfl | rfl
    · have : e = 0 ∨ e = 1 := by simp [first] at h1 h2; omega
      rcases this with rfl | rfl
      · exact ⟨2, ⟨by decide, by decide⟩, by decide, by decide⟩
      · exact ⟨3, ⟨by decide, by decide⟩, by decide, by decide⟩
    · have : e = 2 ∨ e = 3 := by simp [first] at h1 h2; omega
      rcases this with rfl | rfl
      · exact ⟨0, ⟨by decide, by decide⟩, by decide, by decide⟩
      · exact ⟨1, ⟨by decide, by decide⟩, by decide, by decide⟩

/-- **C27, negative.**  The length of the edge array is not checked: with a too short array the function reads outside
of it. -/
theorem C27_short_edge_array_read : validate 2 [0, 1, 2] [1] [] [] true 0 = none := by decide

/-- Non-vacuity: a weighted path is accepted; dropping a reverse edge or changing its weight is noticed. -/
example : validate 3 [0, 1, 3, 4] [1, 0, 2, 1] [] [5, 5, 7, 7] true 0 = some true ∧
    validate 3 [0, 1, 3, 4] [1, 0, 2, 1] [] [5, 5, 7, 8] true 0 = some false ∧
    validate 3 [0, 1, 2, 3] [1, 0, 1] [] [5, 5, 7] true 0 = some false := by decide

end Verif.Validate
