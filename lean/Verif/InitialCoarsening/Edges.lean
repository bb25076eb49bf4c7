import Verif.InitialCoarsening.Mapping

/-!
# The edges of the coarse graph and its clustering
-/

namespace Verif.InitialCoarsening
open Verif.Maps (FastResetArray)
open Finset
open Verif.Contraction (Collects inputs mem_inputs)

/-- `c_nodes` for the given neighbourhoods. -/
def offsets (cols : List (List (Nat × Int))) : List Nat :=
  (List.range (cols.length + 1)).map fun i => (cols.take i).flatten.length

theorem offsets_append (cols : List (List (Nat × Int))) (x : List (Nat × Int)) :
    offsets (cols ++ [x]) = offsets cols ++ [(cols.flatten ++ x).length] := by
  unfold offsets
  rw [List.length_append, List.length_singleton, List.range_succ (n := cols.length + 1), List.map_append]
  congr 1
  · apply List.map_congr_left
    intro i hi
    rw [List.take_append_of_le_length (by have := List.mem_range.1 hi; omega)]
  · simp

theorem offsets_getD (cols : List (List (Nat × Int))) {i : Nat} (hi : i ≤ cols.length) :
    (offsets cols).getD i 0 = (cols.take i).flatten.length := by
  unfold offsets
  rw [List.getD_eq_getElem?_getD, List.getElem?_map, List.getElem?_range (by omega)]
  rfl

theorem slice_eq (cols : List (List (Nat × Int))) {i : Nat} (hi : i < cols.length) :
    (cols.flatten.drop ((offsets cols).getD i 0)).take ((offsets cols).getD (i + 1) 0 - (offsets cols).getD i 0) =
      cols[i] := by
  rw [offsets_getD cols hi.le, offsets_getD cols (by omega : i + 1 ≤ cols.length)]
  have h1 : cols.take (i + 1) = cols.take i ++ [cols[i]] := by rw [List.take_succ_eq_append_getElem hi]
  have h2 : cols = cols.take i ++ [cols[i]] ++ cols.drop (i + 1) := by
    rw [← h1, List.take_append_drop]
  rw [h1, List.flatten_append, List.length_append]
  conv_lhs => enter [2, 2]; rw [h2]
  rw [List.flatten_append, List.flatten_append, List.append_assoc, List.drop_left]
  simp

section
variable (bits : Nat) (max : Int) (coin : Nat → Nat → Bool) (g : Graph) (cn cap : Nat) (mapping : Nat → Nat) (cw : Nat → Int)

/-- The operations on the maps for coarse node `c`. -/
def ops (c : Nat) : List (Nat × Int) := inputs g mapping (members g.n mapping c) c

/-- Coarse nodes `c` and `d` are adjacent. -/
def CAdj (c d : Nat) : Prop := d ∈ (ops g mapping c).map Prod.fst

/-- The coarse nodes below `c` are finished. -/
structure At (c : Nat) (s : Con) : Prop where
  cu : s.cu = c
  coll : s.coll = FastResetArray.new cap
  rating : s.s.rating = FastResetArray.new cap
  vc : VC cn cw (CAdj g mapping) max s.s.cl
  fresh : ∀ d, c ≤ d → d < cn → s.s.cl.leader d = d
  il : s.s.ilocked = false → c < cn → s.s.cl.locked c = false
  rows : ∃ cols : List (List (Nat × Int)), cols.length = c ∧ s.edges = cols.flatten ∧ s.nodes = offsets cols ∧
    ∀ i (hi : i < cols.length), Collects (ops g mapping i) cols[i]

/-- Between the nodes of coarse node `c`, after the operations `done`. -/
structure Mid (c : Nat) (done : List (Nat × Int)) (s0 s : Con) : Prop where
  cu : s.cu = c
  nodes : s.nodes = s0.nodes
  edges : s.edges = s0.edges
  cl : s.s.cl = s0.s.cl
  il : s.s.ilocked = s0.s.ilocked
  coll : Holds s.coll done
  pos : Positive done
  ccap : s.coll.cap = cap
  rlock : s.s.ilocked = true → s.s.rating = FastResetArray.new cap
  rating : s.s.ilocked = false → Holds s.s.rating (done.map fun e => (s.s.cl.leader e.1, e.2))
  rcap : s.s.rating.cap = cap

variable {bits max coin g cn cap mapping cw}

theorem At.mid {c : Nat} {s : Con} (h : At max g cn cap mapping cw c s) : Mid cap c [] s s :=
  ⟨h.cu, rfl, rfl, rfl, rfl, by rw [h.coll]; exact holds_new cap, (by intro e he; cases he), by rw [h.coll]; rfl,
    fun _ => h.rating, fun _ => by rw [h.rating]; exact holds_new cap, by rw [h.rating]; rfl⟩

theorem Positive.append_one {ins : List (Nat × Int)} (h : Positive ins) {e : Nat × Int} (he : 0 < e.2) :
    Positive (ins ++ [e]) := by
  intro x hx
  rcases List.mem_append.1 hx with hx | hx
  · exact h x hx
  · rw [List.mem_singleton.1 hx]; exact he

theorem visit_ok {c : Nat} {done : List (Nat × Int)} {s0 s : Con} (h : Mid cap c done s0 s) {e : Nat × Int} (he : 0 < e.2)
    (hm : mapping e.1 < cap) (hl : s0.s.cl.leader (mapping e.1) < cap) :
    ∃ s', visit? mapping s e = some s' ∧
      Mid cap c (done ++ if c ≠ mapping e.1 then [(mapping e.1, e.2)] else []) s0 s' := by
  unfold visit?
  simp only
  have hcu := h.cu
  by_cases hc : c ≠ mapping e.1
  · rw [if_pos (by rw [hcu]; exact hc), if_pos hc]
    obtain ⟨coll, h1, h2, h3⟩ := holds_add h.coll h.pos (k := mapping e.1) (by rw [h.ccap]; exact hm) e.2
    have hp := h.pos.append_one (e := (mapping e.1, e.2)) he
    rcases Bool.eq_false_or_eq_true s.s.ilocked with hk | hk
    · refine ⟨{ s with coll }, by
        rw [h1]; simp only [Option.bind_eq_bind, Option.bind_some]; rw [if_pos hk], h.cu, h.nodes, h.edges, h.cl, h.il, h3, hp, h2.trans h.ccap, h.rlock, ?_, h.rcap⟩
      intro hf
      rw [hk] at hf; cases hf
    · have hpr : Positive (done.map fun e => (s.s.cl.leader e.1, e.2)) := by
        intro x hx
        obtain ⟨y, hy, rfl⟩ := List.mem_map.1 hx
        exact h.pos y hy
      obtain ⟨r, h4, h5, h6⟩ := holds_add (h.rating hk) hpr (k := s.s.cl.leader (mapping e.1))
        (by rw [h.rcap, h.cl]; exact hl) e.2
      refine ⟨{ s with coll, s := { s.s with rating := r } }, by
        rw [h1]; simp only [Option.bind_eq_bind, Option.bind_some]; rw [if_neg (by rw [hk]; decide), h4]; rfl, h.cu, h.nodes, h.edges, h.cl, h.il, h3, hp,
        h2.trans h.ccap, ?_, ?_, h5.trans h.rcap⟩
      · intro hf; exact absurd (hk.symm.trans hf) (by decide)
      · intro _
        rw [List.map_append]
        exact h6
  · rw [if_neg (by rw [hcu]; exact hc), if_neg hc, List.append_nil]
    exact ⟨s, rfl, h⟩

theorem visit_fold {c : Nat} {s0 : Con} : ∀ (l : List (Nat × Int)) (done : List (Nat × Int)) (s : Con), Mid cap c done s0 s →
    (∀ e ∈ l, 0 < e.2 ∧ mapping e.1 < cap ∧ s0.s.cl.leader (mapping e.1) < cap) →
    ∃ s', l.foldlM (visit? mapping) s = some s' ∧
      Mid cap c (done ++ l.filterMap fun e => if c ≠ mapping e.1 then some (mapping e.1, e.2) else none) s0 s'
  | [], done, s, h, _ => ⟨s, rfl, by simpa using h⟩
  | e :: l, done, s, h, hl => by
    obtain ⟨he, hm, hr⟩ := hl e List.mem_cons_self
    obtain ⟨s1, h1, h2⟩ := visit_ok h he hm hr
    obtain ⟨s2, h3, h4⟩ := visit_fold l _ s1 h2 fun e he => hl e (List.mem_cons_of_mem _ he)
    refine ⟨s2, by rw [List.foldlM_cons, h1]; exact h3, ?_⟩
    rw [List.filterMap_cons]
    rw [List.append_assoc] at h4
    by_cases hc : c ≠ mapping e.1
    · simp only [if_pos hc] at h4 ⊢; exact h4
    · simp only [if_neg hc] at h4 ⊢; exact h4

theorem node_fold (hg : g.WF) (hpos : ∀ u, u < g.n → ∀ e ∈ g.adj u, 0 < e.2) (hmap : ∀ u, u < g.n → mapping u < cn)
    (hcap : cn ≤ cap) {c : Nat} {s0 : Con} (hlead : ∀ d, d < cn → s0.s.cl.leader d < cn) :
    ∀ (l : List Nat) (pre : List Nat) (s : Con), Mid cap c (inputs g mapping pre c) s0 s →
    (∀ u ∈ l, u < g.n ∧ mapping u = c) →
    ∃ s', l.foldlM (node? bits max coin g mapping cw) s = some s' ∧ Mid cap c (inputs g mapping (pre ++ l) c) s0 s'
  | [], pre, s, h, _ => ⟨s, rfl, by simpa using h⟩
  | u :: l, pre, s, h, hl => by
    obtain ⟨hu, huc⟩ := hl u List.mem_cons_self
    obtain ⟨s1, h1, h2⟩ := visit_fold (mapping := mapping) (g.adj u) _ s h fun e he => by
      have := hmap e.1 (hg u hu e he)
      have := hlead _ this
      exact ⟨hpos u hu e he, by omega, by omega⟩
    have h3 : inputs g mapping pre c ++ ((g.adj u).filterMap fun e =>
        if c ≠ mapping e.1 then some (mapping e.1, e.2) else none) = inputs g mapping (pre ++ [u]) c := by
      unfold inputs; rw [List.flatMap_append]; simp
    rw [h3] at h2
    obtain ⟨s2, h4, h5⟩ := node_fold hg hpos hmap hcap hlead l (pre ++ [u]) s1 h2
      fun v hv => hl v (List.mem_cons_of_mem _ hv)
    refine ⟨s2, ?_, by simpa using h5⟩
    rw [List.foldlM_cons]
    unfold node?
    rw [huc, h.cu, if_neg (fun h => h rfl)]
    simp only [Option.bind_eq_bind, Option.bind_some]
    rw [h1]; exact h4

theorem ops_adj (hg : g.WF) (hmap : ∀ u, u < g.n → mapping u < cn) {c : Nat} {x : Nat × Int}
    (hx : x ∈ ops g mapping c) : x.1 < cn := by
  obtain ⟨u, hu, e, he, _, rfl⟩ := mem_inputs.1 hx
  have : u < g.n := by
    unfold members at hu
    exact List.mem_range.1 (List.mem_of_mem_filter hu)
  exact hmap _ (hg u this e he)

theorem handleI_ok (hs : Small bits cn cw) (hg : g.WF) (hmap : ∀ u, u < g.n → mapping u < cn) {c : Nat} (hc : c < cn)
    {s0 s : Con} (h0 : At max g cn cap mapping cw c s0) (h : Mid cap c (ops g mapping c) s0 s) :
    ∃ s', handleI? bits max coin s.s c (cw c) = some s' ∧ VC cn cw (CAdj g mapping) max s'.cl ∧
      s'.rating = FastResetArray.new cap ∧ (∀ d, c + 1 ≤ d → d < cn → s'.cl.leader d = d) ∧
      s'.ilocked = s'.cl.locked (c + 1) := by
  unfold handleI?
  cases hk : s.s.ilocked with
  | true =>
    refine ⟨{ s.s with ilocked := s.s.cl.locked (c + 1) }, by simp, ?_, h.rlock hk, ?_, rfl⟩
    · show VC _ _ _ _ s.s.cl
      rw [h.cl]; exact h0.vc
    · intro d hd hdn
      show s.s.cl.leader d = d
      rw [h.cl]; exact h0.fresh d (by omega) hdn
  | false =>
    have hpr : Positive ((ops g mapping c).map fun e => (s.s.cl.leader e.1, e.2)) := by
      intro x hx
      obtain ⟨y, hy, rfl⟩ := List.mem_map.1 hx
      exact h.pos y hy
    obtain ⟨best, h1, h2, _⟩ := pick_ok (max := max) (uw := cw c) (coin := coin c) (cl := s.s.cl) (u := c) (h.rating hk) hpr
    refine ⟨{ cl := join bits s.s.cl c best (cw c), rating := FastResetArray.new s.s.rating.cap,
              ilocked := (join bits s.s.cl c best (cw c)).locked (c + 1) }, by simp [h1], ?_, by simp only [h.rcap], ?_, rfl⟩
    · apply join_vc hs (by rw [h.cl]; exact h0.vc) hc (by rw [h.cl]; exact h0.il (h.il ▸ hk) hc)
        (by rw [h.cl]; exact h0.fresh c (le_refl _) hc)
      rcases h2 with h2 | ⟨h2, h3⟩
      · exact Or.inl h2
      · refine Or.inr ⟨?_, h3⟩
        rw [List.map_map] at h2
        obtain ⟨e, he, rfl⟩ := List.mem_map.1 h2
        exact ⟨e.1, ops_adj hg hmap he, List.mem_map_of_mem he, rfl⟩
    · intro d hd hdn
      show (join bits s.s.cl c best (cw c)).leader d = d
      rw [join_leader (by omega), h.cl]
      exact h0.fresh d (by omega) hdn

theorem flush_ok (hs : Small bits cn cw) (hg : g.WF) (hmap : ∀ u, u < g.n → mapping u < cn) {c : Nat} (hc : c < cn)
    {s0 s : Con} (h0 : At max g cn cap mapping cw c s0) (h : Mid cap c (ops g mapping c) s0 s) :
    ∃ s', flush? bits max coin cw s = some s' ∧ At max g cn cap mapping cw (c + 1) s' := by
  obtain ⟨s1, h1, h2, h3, h4, h5⟩ := handleI_ok (coin := coin) hs hg hmap hc h0 h
  unfold flush?
  rw [h.cu, h1]
  refine ⟨_, rfl, rfl, ?_, h3, h2, h4, ?_, ?_⟩
  · show s.coll.clear = _
    rw [holds_clear h.coll, h.ccap]
  · intro hf _
    show s1.cl.locked (c + 1) = false
    rw [← h5]; exact hf
  · obtain ⟨cols, e1, e2, e3, e4⟩ := h0.rows
    refine ⟨cols ++ [s.coll.entries], by simp [e1], ?_, ?_, ?_⟩
    · show s.edges ++ s.coll.entries = _
      rw [h.edges, e2]; simp
    · show s.nodes ++ [(s.edges ++ s.coll.entries).length] = _
      rw [h.nodes, h.edges, e2, e3, offsets_append]
    · intro i hi
      rw [List.length_append, List.length_singleton] at hi
      by_cases hic : i < cols.length
      · rw [List.getElem_append_left hic]; exact e4 i hic
      · have : i = c := by omega
        subst this
        rw [List.getElem_append_right (by omega)]
        simp only [List.getElem_singleton]
        exact holds_collects h.coll

theorem edges_ok (hs : Small bits cn cw) (hg : g.WF) (hpos : ∀ u, u < g.n → ∀ e ∈ g.adj u, 0 < e.2)
    (hmap : ∀ u, u < g.n → mapping u < cn) (hcap : cn ≤ cap) (honto : ∀ c, c < cn → ∃ u, u < g.n ∧ mapping u = c)
    {s : Con} (h0 : At max g cn cap mapping cw 0 s) : ∀ c, c < cn →
    ∃ s0 s', ((List.range (c + 1)).flatMap (members g.n mapping)).foldlM (node? bits max coin g mapping cw) s = some s' ∧
      At max g cn cap mapping cw c s0 ∧ Mid cap c (ops g mapping c) s0 s' := by
  have hrow : ∀ c s0, c < cn → At max g cn cap mapping cw c s0 →
      ∃ s', (members g.n mapping c).foldlM (node? bits max coin g mapping cw) s0 = some s' ∧
        Mid cap c (ops g mapping c) s0 s' := by
    intro c s0 _ h
    obtain ⟨s', h1, h2⟩ := node_fold (bits := bits) (max := max) (coin := coin) (cw := cw) hg hpos hmap hcap (c := c)
      (s0 := s0) (fun d hd => h.vc.lt d hd) (members g.n mapping c) [] s0 h.mid (by
        intro u hu
        unfold members at hu
        have := List.mem_filter.1 hu
        exact ⟨List.mem_range.1 this.1, by simpa using this.2⟩)
    exact ⟨s', h1, h2⟩
  intro c
  induction c with
  | zero =>
    intro hc
    obtain ⟨s', h1, h2⟩ := hrow 0 s hc h0
    exact ⟨s, s', by simpa using h1, h0, h2⟩
  | succ c ih =>
    intro hc
    obtain ⟨s0, s1, h1, h2, h3⟩ := ih (by omega)
    obtain ⟨s2, h4, h5⟩ := flush_ok (coin := coin) hs hg hmap (by omega) h2 h3
    obtain ⟨s3, h6, h7⟩ := hrow (c + 1) s2 hc h5
    refine ⟨s2, s3, ?_, h5, h7⟩
    rw [List.range_succ, List.flatMap_append, List.foldlM_append, h1]
    simp only [List.flatMap_cons, List.flatMap_nil, List.append_nil, Option.bind_eq_bind, Option.bind_some]
    -- the first node of the next coarse node finishes the current one
    obtain ⟨u, hu, huc⟩ := honto (c + 1) hc
    have hmem : u ∈ members g.n mapping (c + 1) := by
      unfold members; simp [hu, huc]
    have hall : ∀ v ∈ members g.n mapping (c + 1), mapping v = c + 1 := by
      intro v hv
      unfold members at hv
      simpa using (List.mem_filter.1 hv).2
    cases hml : members g.n mapping (c + 1) with
    | nil => rw [hml] at hmem; cases hmem
    | cons v l =>
      rw [hml] at h6 hall
      have hv := hall v List.mem_cons_self
      rw [List.foldlM_cons] at h6 ⊢
      have e1 : node? bits max coin g mapping cw s1 v = node? bits max coin g mapping cw s2 v := by
        unfold node?
        rw [hv, h3.cu, h5.cu, if_pos (by omega), if_neg (fun h => h rfl), h4]
      rw [e1]; exact h6

end

end Verif.InitialCoarsening
