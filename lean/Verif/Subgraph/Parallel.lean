import Verif.Subgraph.Construct

/-! Lemmas: the parallel and the lazy extraction. -/

namespace Verif.Subgraph
open Verif.Contraction (psum psum_succ psum_congr psum_mono prefixSum_eq psum_size)

theorem mem_w {g : LGraph} {u : Nat} (h : u < g.length) : (g.w u, g.adj u) ∈ g := by
  have : (g.w u, g.adj u) = g[u] := by
    simp [LGraph.w, LGraph.adj, List.getD_eq_getElem?_getD, List.getElem?_eq_getElem h]
  rw [this]
  exact List.getElem_mem h

theorem m_eq (g : LGraph) : g.m = ((List.range g.length).map fun u => (g.adj u).length).sum := by
  unfold LGraph.m
  congr 1
  apply List.ext_getElem
  · simp
  · intro i h1 h2
    simp at h1
    simp [LGraph.adj, List.getD_eq_getElem?_getD, List.getElem?_eq_getElem h1]

theorem nodeWeighted_false {g : LGraph} (hp : g.Positive) (h : g.nodeWeighted = false) : ∀ r ∈ g, r.1 = 1 := by
  intro r hr
  unfold LGraph.nodeWeighted at h
  simp only [ne_eq, decide_not, Bool.not_eq_false', decide_eq_true_eq] at h
  refine all_one (l := g.map Prod.fst) ?_ (by simpa using h) _ (List.mem_map.2 ⟨r, hr, rfl⟩)
  intro x hx
  obtain ⟨r, hr, rfl⟩ := List.mem_map.1 hx
  exact (hp r hr).1

theorem edgeWeighted_false {g : LGraph} (hp : g.Positive) (h : g.edgeWeighted = false) :
    ∀ r ∈ g, ∀ e ∈ r.2, e.2 = 1 := by
  intro r hr e he
  unfold LGraph.edgeWeighted at h
  simp only [ne_eq, decide_not, Bool.not_eq_false', decide_eq_true_eq] at h
  refine all_one (l := (g.flatMap Prod.snd).map Prod.snd) ?_ (by rw [List.length_map]; exact h) _
    (List.mem_map.2 ⟨e, List.mem_flatMap.2 ⟨r, hr, he⟩, rfl⟩)
  intro x hx
  obtain ⟨y, hy, rfl⟩ := List.mem_map.1 hx
  obtain ⟨r, hr, hm⟩ := List.mem_flatMap.1 hy
  exact (hp r hr).2 _ hm

theorem mem_kept {mapping : Nat → Nat} {keep : Nat → Bool} {adj : List (Nat × Int)} {e : Nat × Int}
    (h : e ∈ kept mapping keep adj) : ∃ e' ∈ adj, e.2 = e'.2 := by
  obtain ⟨e', he', rfl⟩ := List.mem_map.1 h
  exact ⟨e', (List.mem_filter.1 he').1, rfl⟩

theorem rows_positive {g : LGraph} (hp : g.Positive) {part mapping : Nat → Nat} {b : Nat} {ns : List Nat}
    (hns : ∀ u ∈ ns, u < g.length) : (rows g part mapping b ns).Positive := by
  intro r hr
  obtain ⟨u, hu, rfl⟩ := List.mem_map.1 hr
  have := hp _ (mem_w (hns u hu))
  refine ⟨this.1, ?_⟩
  intro e he
  obtain ⟨e', he', h⟩ := mem_kept (mapping := mapping) (keep := fun v => decide (part v = b)) (adj := g.adj u) he
  rw [h]
  exact this.2 e' he'

theorem rows_nw {g : LGraph} (hp : g.Positive) {part mapping : Nat → Nat} {b : Nat} {ns : List Nat}
    (hns : ∀ u ∈ ns, u < g.length) (h : g.nodeWeighted = false) : ∀ r ∈ rows g part mapping b ns, r.1 = 1 := by
  intro r hr
  obtain ⟨u, hu, rfl⟩ := List.mem_map.1 hr
  exact nodeWeighted_false hp h (g.w u, g.adj u) (mem_w (hns u hu))

theorem rows_ew {g : LGraph} (hp : g.Positive) {part mapping : Nat → Nat} {b : Nat} {ns : List Nat}
    (hns : ∀ u ∈ ns, u < g.length) (h : g.edgeWeighted = false) :
    ∀ r ∈ rows g part mapping b ns, ∀ e ∈ r.2, e.2 = 1 := by
  intro r hr e he
  obtain ⟨u, hu, rfl⟩ := List.mem_map.1 hr
  obtain ⟨e', he', h'⟩ := mem_kept (mapping := mapping) (keep := fun v => decide (part v = b)) (adj := g.adj u) he
  rw [h']
  exact edgeWeighted_false hp h _ (mem_w (hns u hu)) e' he'

theorem rows_m {g : LGraph} {part mapping : Nat → Nat} {b : Nat} {ns : List Nat}
    (hperm : ns.Perm ((List.range g.length).filter (part · = b))) :
    (rows g part mapping b ns).m = bedges g part b := by
  unfold LGraph.m rows bedges
  rw [List.map_map, ← (hperm.map _).sum_eq]
  congr 1
  apply List.map_congr_left
  intro u _
  simp [row, kept, deg, List.countP_eq_length_filter]

/-- The constructed rows are the induced subgraph. -/
theorem rows_induced {g : LGraph} {part start : Nat → Nat} {s : BState} {ns : Nat → List Nat}
    (h : Bucketed g.length part start s ns) (b : Nat) :
    IsInduced g part b s.mapping (rows g part s.mapping b (ns b)) := by
  have hmem : ∀ u, u < g.length → part u = b → ∃ i, ∃ hi : i < (ns b).length, (ns b)[i] = u ∧ s.mapping u = i := by
    intro u hu hb
    have : u ∈ ns b := (h.perm b).mem_iff.2 (List.mem_filter.2 ⟨List.mem_range.2 hu, by simp [hb]⟩)
    obtain ⟨i, hi, he⟩ := List.getElem_of_mem this
    refine ⟨i, hi, he, ?_⟩
    have := h.mapping b i hi
    rw [he] at this
    exact this
  constructor
  · rw [length_rows, (h.perm b).length_eq]
  · intro u hu hb
    obtain ⟨i, hi, _, he⟩ := hmem u hu hb
    rw [length_rows, he]
    exact hi
  · intro u v hu hv hbu hbv he
    obtain ⟨i, hi, h1, h2⟩ := hmem u hu hbu
    obtain ⟨j, hj, h3, h4⟩ := hmem v hv hbv
    have : i = j := by omega
    subst this
    rw [← h1, ← h3]
  · intro u hu hb
    obtain ⟨i, hi, h1, h2⟩ := hmem u hu hb
    rw [h2]
    unfold rows
    rw [List.getElem?_map, List.getElem?_eq_getElem hi, h1]
    rfl

theorem psum_add (f g : Nat → Nat) (k : Nat) : psum (fun b => f b + g b) k = psum f k + psum g k := by
  induction k with
  | zero => rfl
  | succ k ih => rw [psum_succ, psum_succ, psum_succ, ih]; omega

theorem psum_single (x : Nat → Nat) (a k : Nat) : psum (fun b => if a = b then x b else 0) k ≤ x a := by
  have : psum (fun b => if a = b then x b else 0) k = if a < k then x a else 0 := by
    induction k with
    | zero => rfl
    | succ k ih =>
      rw [psum_succ, ih]
      rcases Nat.lt_trichotomy a k with h | h | h
      · simp [h, show a ≠ k by omega, show a < k + 1 by omega]
      · simp [h]
      · simp [show ¬ a < k by omega, show a ≠ k by omega, show ¬ a < k + 1 by omega]
  rw [this]; split <;> omega

theorem psum_bsize {n k : Nat} {part : Nat → Nat} (hk : ∀ u, u < n → part u < k) : psum (bsize n part) k = n := by
  have h := psum_size (n := n) (mapping := part) k
  have e : psum (bsize n part) k = (List.range n).countP (part · < k) := h
  have : (List.range n).countP (part · < k) = (List.range n).length := by
    rw [List.countP_eq_length]
    intro u hu
    simpa using hk u (List.mem_range.1 hu)
  rw [e, this, List.length_range]

theorem psum_bedges (g : LGraph) (part : Nat → Nat) (k : Nat) : psum (bedges g part) k ≤ g.m := by
  rw [m_eq]
  unfold bedges
  generalize List.range g.length = us
  induction us with
  | nil =>
    have : ∀ k, psum (fun b => ((([] : List Nat).filter (part · = b)).map (deg g part b)).sum) k = 0 := by
      intro k
      induction k with
      | zero => rfl
      | succ k ih => rw [psum_succ, ih]; rfl
    show psum (fun b => ((([] : List Nat).filter (part · = b)).map (deg g part b)).sum) k ≤ _
    rw [this]; exact Nat.zero_le _
  | cons a us ih =>
    have : psum (fun b => (((a :: us).filter (part · = b)).map (deg g part b)).sum) k =
        psum (fun b => (if part a = b then deg g part b a else 0) +
          ((us.filter (part · = b)).map (deg g part b)).sum) k := by
      apply psum_congr
      intro b _
      rw [List.filter_cons]
      by_cases h : part a = b <;> simp [h]
    show psum (fun b => (((a :: us).filter (part · = b)).map (deg g part b)).sum) k ≤ _
    rw [this, psum_add, List.map_cons, List.sum_cons]
    have h1 := psum_single (fun b => deg g part b a) (part a) k
    have h2 : deg g part (part a) a ≤ (g.adj a).length := List.countP_le_length
    have ih' : psum (fun b => ((us.filter (part · = b)).map (deg g part b)).sum) k ≤ _ := ih
    omega

/-! ## One block at a time -/

/-- The first `c` rows are written. -/
structure PInv (mem : Cell → Int) (nb eb : Nat) (nwf ewf : Bool) (rs : LGraph) (c : Nat) : Prop where
  node : ∀ i, i < c → mem (.node (nb + i)) = (first rs i : Int)
  nw : nwf = true → ∀ i, i < c → (h : i < rs.length) → mem (.nw (nb + i)) = rs[i].1
  edge : ∀ j, j < first rs c → (h : j < (rs.flatMap Prod.snd).length) →
    mem (.edge (eb + j)) = ((rs.flatMap Prod.snd)[j].1 : Int) ∧
    (ewf = true → mem (.ew (eb + j)) = (rs.flatMap Prod.snd)[j].2)

theorem extractLoop_spec {g : LGraph} {part mapping : Nat → Nat} {b : Nat} {nwf ewf : Bool} {ns : List Nat} :
    ∀ (us : List Nat) (c : Nat) (m : Mem), ns.drop c = us → c ≤ ns.length →
    PInv m.cell 0 0 nwf ewf (rows g part mapping b ns) c →
    let r := extractLoop g part mapping b nwf ewf us m c (first (rows g part mapping b ns) c)
    r.2.1 = ns.length ∧ r.2.2 = (rows g part mapping b ns).m ∧ r.1.size = m.size ∧
    PInv r.1.cell 0 0 nwf ewf (rows g part mapping b ns) ns.length ∧
    (m.ok = true → ns.length < m.size.nodes → (nwf = true → ns.length ≤ m.size.nw) →
      (rows g part mapping b ns).m ≤ m.size.edges →
      (ewf = true → (rows g part mapping b ns).m ≤ m.size.ew) → r.1.ok = true)
  | [], c, m, hd, hc, hi => by
    have hce : c = ns.length := by
      have := congrArg List.length hd
      simp at this
      omega
    subst hce
    refine ⟨rfl, ?_, rfl, hi, fun h _ _ _ _ => h⟩
    show first _ _ = _
    rw [← first_length, length_rows]
  | u :: us, c, m, hd, hc, hi => by
    have hlen := length_rows g part mapping b ns
    have hlt : c < ns.length := by
      have := congrArg List.length hd
      simp at this
      omega
    have hu : ns[c] = u := by
      have := congrArg List.head? hd
      rw [List.head?_drop, List.getElem?_eq_getElem hlt] at this
      simpa using this
    have hd' : ns.drop (c + 1) = us := by
      rw [← List.drop_drop, hd]; rfl
    have hrow : (rows g part mapping b ns)[c]'(by omega) = row g part mapping b u := by
      rw [← hu]; exact List.getElem_map _
    have hsucc := first_succ (rows := rows g part mapping b ns) (i := c) (by omega)
    rw [hrow] at hsucc
    have hle : first (rows g part mapping b ns) (c + 1) ≤ (rows g part mapping b ns).m := by
      rw [← first_length]; exact first_mono (by omega)
    intro r
    have hr : r = extractLoop g part mapping b nwf ewf (u :: us) m c (first (rows g part mapping b ns) c) := rfl
    clear_value r
    simp only [extractLoop] at hr
    generalize hm1 : (if nwf = true then (m.store (Cell.node c) ↑(first (rows g part mapping b ns) c)).store
      (Cell.nw c) (g.w u) else m.store (Cell.node c) ↑(first (rows g part mapping b ns) c)) = m1 at hr
    have hp := putEdges_spec ewf 0 mapping (fun v => part v = b) (g.adj u) m1 (first (rows g part mapping b ns) c)
    generalize hq : putEdges ewf 0 mapping (fun v => decide (part v = b)) (g.adj u) m1
      (first (rows g part mapping b ns) c) = q at hr hp
    obtain ⟨p1, p2, p3, p4, p5⟩ := hp
    have hkl : (kept mapping (fun v => decide (part v = b)) (g.adj u)).length = (row g part mapping b u).2.length := rfl
    rw [hkl] at p1 p3 p5
    have m1node : m1.cell (.node c) = (first (rows g part mapping b ns) c : Int) := by
      rw [← hm1]
      split
      · rw [store_cell, upd_ne _ _ (by simp), store_cell, upd_same]
      · rw [store_cell, upd_same]
    have m1nw : nwf = true → m1.cell (.nw c) = g.w u := by
      intro h
      rw [← hm1, if_pos h, store_cell, upd_same]
    have m1other : ∀ x, x ≠ .node c → x ≠ .nw c → m1.cell x = m.cell x := by
      intro x h1 h2
      rw [← hm1]
      split
      · rw [store_cell, upd_ne _ _ h2, store_cell, upd_ne _ _ h1]
      · rw [store_cell, upd_ne _ _ h1]
    have m1size : m1.size = m.size := by
      rw [← hm1]; split <;> rfl
    have hinv : PInv q.1.cell 0 0 nwf ewf (rows g part mapping b ns) (c + 1) := by
      constructor
      · intro i hi'
        rw [p3 _ (by simp [EdgeIn]), Nat.zero_add]
        by_cases h : i = c
        · subst h; exact m1node
        · rw [m1other _ (by simp; omega) (by simp)]
          have := hi.node i (by omega)
          rwa [Nat.zero_add] at this
      · intro hw i hi' h
        rw [p3 _ (by simp [EdgeIn]), Nat.zero_add]
        by_cases h' : i = c
        · subst h'
          rw [m1nw hw, hrow]
          rfl
        · rw [m1other _ (by simp) (by simp; omega)]
          have := hi.nw hw i (by omega) h
          rwa [Nat.zero_add] at this
      · intro j hj h
        rw [hsucc] at hj
        by_cases hjc : j < first (rows g part mapping b ns) c
        · rw [p3 _ (by simp only [EdgeIn]; omega), p3 _ (by simp only [EdgeIn]; omega),
            m1other _ (by simp) (by simp), m1other _ (by simp) (by simp)]
          exact hi.edge j hjc h
        · have hj2 : j - first (rows g part mapping b ns) c < (row g part mapping b u).2.length := by omega
          have := p4 (j - first (rows g part mapping b ns) c) hj2
          rw [show 0 + first (rows g part mapping b ns) c + (j - first (rows g part mapping b ns) c) =
            0 + j by omega] at this
          have hfg := flat_get (rows := rows g part mapping b ns) (i := c) (j := j - first (rows g part mapping b ns) c)
            (by omega) (by rw [hrow]; exact hj2)
          rw [show first (rows g part mapping b ns) c + (j - first (rows g part mapping b ns) c) = j by omega] at hfg
          obtain ⟨_, heq⟩ := List.getElem?_eq_some_iff.1 hfg
          have hel : ((rows g part mapping b ns).flatMap Prod.snd)[j] =
              (kept mapping (fun v => decide (part v = b)) (g.adj u))[j - first (rows g part mapping b ns) c]'hj2 := by
            rw [heq]
            simp only [hrow]
            rfl
          rw [hel]
          exact this
    have hq2 : q.2 = first (rows g part mapping b ns) (c + 1) := by rw [p1, hsucc]
    rw [hq2] at hr
    obtain ⟨r1, r2, r3, r4, r5⟩ := extractLoop_spec us (c + 1) q.1 hd' (by omega) hinv
    rw [← hr] at r1 r2 r3 r4 r5
    refine ⟨r1, r2, by rw [r3, p2, m1size], r4, ?_⟩
    intro hok h1 h2 h3 h4
    have hsz : q.1.size = m.size := by rw [p2, m1size]
    apply r5
    · apply p5
      · rw [← hm1]
        split
        · rename_i hw
          have := h2 hw
          simp [Mem.store, Cell.valid, hok]
          omega
        · simp [Mem.store, Cell.valid, hok]
          omega
      · rw [m1size]; omega
      · intro hw
        have := h4 hw
        rw [m1size]; omega
    · rw [hsz]; exact h1
    · rw [hsz]; exact h2
    · rw [hsz]; exact h3
    · rw [hsz]; exact h4

end Verif.Subgraph
