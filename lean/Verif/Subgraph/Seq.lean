import Verif.Subgraph.Parallel

/-! Lemmas: the sequential extraction of the two sides of a bipartition. -/

namespace Verif.Subgraph

/-! ## First pass -/

theorem pass1_spec (g : LGraph) (part map0 : Nat → Nat) :
    (∀ u, u < g.length → (pass1 g part map0).mapping u = rank part u) ∧
    (∀ b, (pass1 g part map0).sn b = bsize g.length part b) ∧
    (∀ b, (pass1 g part map0).sm b = bedges g part b) := by
  have key : ∀ j, ∀ s, s = (List.range j).foldl (fun (s : Pass1) (u : Nat) =>
      ({ mapping := upd s.mapping u (s.sn (part u))
         sn := upd s.sn (part u) (s.sn (part u) + 1)
         sm := upd s.sm (part u) (s.sm (part u) + (g.adj u).countP (fun e => part e.1 = part u)) } : Pass1))
      ⟨map0, fun _ => 0, fun _ => 0⟩ →
      (∀ u, u < j → s.mapping u = rank part u) ∧
      (∀ b, s.sn b = (List.range j).countP (part · = b)) ∧
      (∀ b, s.sm b = (((List.range j).filter (part · = b)).map (deg g part b)).sum) := by
    intro j
    induction j with
    | zero =>
      rintro s rfl
      exact ⟨fun u h => absurd h (Nat.not_lt_zero u), fun b => rfl, fun b => rfl⟩
    | succ j ih =>
      rw [List.range_succ, List.foldl_append, List.foldl_cons, List.foldl_nil]
      obtain ⟨i1, i2, i3⟩ := ih _ rfl
      rintro s rfl
      refine ⟨?_, ?_, ?_⟩
      · intro u hu
        show upd _ j _ u = _
        by_cases h : u = j
        · subst h; rw [upd_same, i2]; rfl
        · rw [upd_ne _ _ h]; exact i1 u (by omega)
      · intro b
        show upd _ (part j) _ b = _
        rw [List.countP_append]
        by_cases h : b = part j
        · subst h; rw [upd_same, i2]; simp
        · rw [upd_ne _ _ h, i2]; simp [Ne.symm h]
      · intro b
        show upd _ (part j) _ b = _
        rw [List.filter_append, List.map_append, List.sum_append]
        by_cases h : b = part j
        · subst h; rw [upd_same, i3]; simp [deg]
        · rw [upd_ne _ _ h, i3]; simp [Ne.symm h]
  obtain ⟨h1, h2, h3⟩ := key g.length _ rfl
  exact ⟨h1, h2, h3⟩

/-! ## Second pass -/

/-- The nodes of a block in their order. -/
def blockNodes (n : Nat) (part : Nat → Nat) (b : Nat) : List Nat := (List.range n).filter (part · = b)

theorem blockNodes_succ (n : Nat) (part : Nat → Nat) (b : Nat) :
    blockNodes (n + 1) part b = blockNodes n part b ++ if part n = b then [n] else [] := by
  unfold blockNodes
  rw [List.range_succ, List.filter_append]
  congr 1
  by_cases h : part n = b <;> simp [h]

theorem length_blockNodes (n : Nat) (part : Nat → Nat) (b : Nat) :
    (blockNodes n part b).length = bsize n part b := by
  unfold blockNodes bsize
  rw [List.countP_eq_length_filter]

theorem bsize_mono {i j : Nat} (part : Nat → Nat) (b : Nat) (h : i ≤ j) : bsize i part b ≤ bsize j part b := by
  unfold bsize
  have : List.range j = List.range i ++ (List.range' i (j - i)) := by
    rw [List.range_eq_range', List.range_eq_range']
    have := List.range'_append_1 (s := 0) (m := i) (n := j - i)
    rw [Nat.zero_add, Nat.add_sub_cancel' h] at this
    exact this.symm
  rw [this, List.countP_append]
  omega

theorem rank_eq (part : Nat → Nat) (u : Nat) : rank part u = bsize u part (part u) := rfl

theorem bsize_succ (n : Nat) (part : Nat → Nat) (b : Nat) :
    bsize (n + 1) part b = bsize n part b + if part n = b then 1 else 0 := by
  rw [← length_blockNodes, ← length_blockNodes, blockNodes_succ, List.length_append]
  congr 1
  split <;> rfl

theorem rank_lt {n : Nat} (part : Nat → Nat) {u : Nat} (h : u < n) : rank part u < bsize n part (part u) := by
  have h1 := bsize_mono part (part u) (show u + 1 ≤ n from h)
  rw [bsize_succ, if_pos rfl] at h1
  rw [rank_eq]
  omega

theorem blockNodes_get (part : Nat → Nat) {n u : Nat} (h : u < n) :
    (blockNodes n part (part u))[rank part u]? = some u := by
  induction n with
  | zero => omega
  | succ n ih =>
    rw [blockNodes_succ]
    by_cases hu : u < n
    · rw [List.getElem?_append_left, ih hu]
      rw [length_blockNodes]
      exact rank_lt part hu
    · have : u = n := by omega
      subst this
      rw [if_pos rfl, rank_eq, ← length_blockNodes]
      simp

/-- The first `c` rows are written, with the end of each row. -/
structure QInv (mem : Cell → Int) (nb eb : Nat) (nwf ewf : Bool) (rs : LGraph) (c : Nat) : Prop where
  node : ∀ i, i ≤ c → mem (.node (nb + i)) = (first rs i : Int)
  nw : nwf = true → ∀ i, i < c → (h : i < rs.length) → mem (.nw (nb + i)) = rs[i].1
  edge : ∀ j, j < first rs c → (h : j < (rs.flatMap Prod.snd).length) →
    mem (.edge (eb + j)) = ((rs.flatMap Prod.snd)[j].1 : Int) ∧
    (ewf = true → mem (.ew (eb + j)) = (rs.flatMap Prod.snd)[j].2)

theorem QInv.congr {mem mem' : Cell → Int} {nb eb : Nat} {nwf ewf : Bool} {rs : LGraph} {c : Nat}
    (hi : QInv mem nb eb nwf ewf rs c) (hc : c ≤ rs.length)
    (hx : ∀ x, Region nb eb rs.length rs.m x → mem' x = mem x) : QInv mem' nb eb nwf ewf rs c := by
  constructor
  · intro i h; rw [hx (.node _) ⟨by omega, by omega⟩]; exact hi.node i h
  · intro hw i h1 h2; rw [hx (.nw _) ⟨by omega, by omega⟩]; exact hi.nw hw i h1 h2
  · intro j h1 h2
    have h3 := h2
    rw [length_flat] at h3
    rw [hx (.edge _) ⟨by omega, by omega⟩, hx (.ew _) ⟨by omega, by omega⟩]
    exact hi.edge j h1 h2

theorem QInv.stored {mem : Cell → Int} {nb eb : Nat} {nwf ewf : Bool} {rs : LGraph}
    (hi : QInv mem nb eb nwf ewf rs rs.length) : Stored mem nb eb nwf ewf rs := by
  constructor
  · exact hi.node
  · intro hw i h; exact hi.nw hw i h h
  · intro j h
    exact (hi.edge j (by rw [first_length, ← length_flat]; exact h) h).1
  · intro hw j h
    exact (hi.edge j (by rw [first_length, ← length_flat]; exact h) h).2 hw

/-- The rows of side `b`. -/
abbrev srows (g : LGraph) (part mapping : Nat → Nat) (b : Nat) : LGraph :=
  rows g part mapping b (blockNodes g.length part b)

theorem length_srows (g : LGraph) (part mapping : Nat → Nat) (b : Nat) :
    (srows g part mapping b).length = bsize g.length part b := by
  rw [length_rows, length_blockNodes]

theorem srows_m (g : LGraph) (part mapping : Nat → Nat) (b : Nat) :
    (srows g part mapping b).m = bedges g part b := rows_m (List.Perm.refl _)

theorem pass2_step {g : LGraph} {part mapping : Nat → Nat} {n1 m1 : Nat} {nwf ewf : Bool} {s : Mem × (Nat → Nat)}
    {u : Nat} (hu : u < g.length) (hmap : ∀ u, u < g.length → mapping u = rank part u)
    (hi : QInv s.1.cell (part u * n1) (part u * m1) nwf ewf (srows g part mapping (part u)) (bsize u part (part u)))
    (hnext : s.2 (part u) = first (srows g part mapping (part u)) (bsize u part (part u))) :
    let s' := pass2Step g part mapping n1 m1 nwf ewf s u
    QInv s'.1.cell (part u * n1) (part u * m1) nwf ewf (srows g part mapping (part u)) (bsize u part (part u) + 1) ∧
    s'.2 (part u) = first (srows g part mapping (part u)) (bsize u part (part u) + 1) ∧
    (∀ b, b ≠ part u → s'.2 b = s.2 b) ∧
    (∀ x, ¬ Region (part u * n1) (part u * m1) (bsize g.length part (part u)) (bedges g part (part u)) x →
      s'.1.cell x = s.1.cell x) ∧ s'.1.size = s.1.size ∧
    (s.1.ok = true → part u * n1 + bsize g.length part (part u) < s.1.size.nodes →
      (nwf = true → part u * n1 + bsize g.length part (part u) ≤ s.1.size.nw) →
      part u * m1 + bedges g part (part u) ≤ s.1.size.edges →
      (ewf = true → part u * m1 + bedges g part (part u) ≤ s.1.size.ew) → s'.1.ok = true) := by
  intro s'
  have hs' : s' = pass2Step g part mapping n1 m1 nwf ewf s u := rfl
  clear_value s'
  generalize hb : part u = b at *
  generalize hc : bsize u part b = c at *
  have hrk : rank part u = c := by rw [rank_eq, hb, hc]
  have hlt : c < bsize g.length part b := by
    have := rank_lt part hu
    rw [hrk, hb] at this
    exact this
  have hlen := length_srows g part mapping b
  have hmm := srows_m g part mapping b
  have hrow? : (srows g part mapping b)[c]? = some (row g part mapping b u) := by
    have h1 := blockNodes_get part hu
    rw [hb, hrk] at h1
    unfold srows rows
    rw [List.getElem?_map, h1]
    rfl
  generalize hrs : srows g part mapping b = rs at *
  obtain ⟨hclt, hrow⟩ := List.getElem?_eq_some_iff.1 hrow?
  have hsucc := first_succ (rows := rs) (i := c) hclt
  rw [hrow] at hsucc
  have hle : first rs (c + 1) ≤ bedges g part b := by
    rw [← hmm, ← first_length]; exact first_mono (by omega)
  simp only [pass2Step, hb] at hs'
  rw [hnext, hmap u hu, hrk] at hs'
  have hp := putEdges_spec ewf (b * m1) mapping (fun v => part v = b) (g.adj u) s.1 (first rs c)
  generalize hq : putEdges ewf (b * m1) mapping (fun v => decide (part v = b)) (g.adj u) s.1 (first rs c) = q at hs' hp
  obtain ⟨p1, p2, p3, p4, p5⟩ := hp
  have hkl : (kept mapping (fun v => decide (part v = b)) (g.adj u)).length = (row g part mapping b u).2.length := rfl
  rw [hkl] at p1 p3 p5
  rw [p1, ← hsucc] at hs'
  generalize hm1 : (if nwf = true then (q.1.store (Cell.node (b * n1 + c + 1)) ↑(first rs (c + 1))).store
    (Cell.nw (b * n1 + c)) (g.w u) else q.1.store (Cell.node (b * n1 + c + 1)) ↑(first rs (c + 1))) = m at hs'
  have mnode : m.cell (.node (b * n1 + (c + 1))) = (first rs (c + 1) : Int) := by
    rw [← hm1]
    split
    · rw [store_cell, upd_ne _ _ (by simp), store_cell, ← Nat.add_assoc, upd_same]
    · rw [store_cell, ← Nat.add_assoc, upd_same]
  have mnw : nwf = true → m.cell (.nw (b * n1 + c)) = g.w u := by
    intro h
    rw [← hm1, if_pos h, store_cell, upd_same]
  have mother : ∀ x, x ≠ .node (b * n1 + c + 1) → x ≠ .nw (b * n1 + c) → m.cell x = q.1.cell x := by
    intro x h1 h2
    rw [← hm1]
    split
    · rw [store_cell, upd_ne _ _ h2, store_cell, upd_ne _ _ h1]
    · rw [store_cell, upd_ne _ _ h1]
  have msize : m.size = s.1.size := by
    rw [← hm1, ← p2]; split <;> rfl
  subst hs'
  refine ⟨?_, ?_, ?_, ?_, msize, ?_⟩
  · constructor
    · intro i hi'
      show m.cell _ = _
      by_cases h : i = c + 1
      · subst h; exact mnode
      · rw [mother _ (by simp; omega) (by simp), p3 _ (by simp [EdgeIn])]
        exact hi.node i (by omega)
    · intro hw i hi' h
      show m.cell _ = _
      by_cases h' : i = c
      · subst h'
        rw [mnw hw, hrow]
        rfl
      · rw [mother _ (by simp) (by simp; omega), p3 _ (by simp [EdgeIn])]
        exact hi.nw hw i (by omega) h
    · intro j hj h
      show m.cell _ = _ ∧ (_ → m.cell _ = _)
      rw [hsucc] at hj
      rw [mother _ (by simp) (by simp), mother _ (by simp) (by simp)]
      by_cases hjc : j < first rs c
      · rw [p3 _ (by simp only [EdgeIn]; omega), p3 _ (by simp only [EdgeIn]; omega)]
        exact hi.edge j hjc h
      · have hj2 : j - first rs c < (row g part mapping b u).2.length := by omega
        have := p4 (j - first rs c) hj2
        rw [show b * m1 + first rs c + (j - first rs c) = b * m1 + j by omega] at this
        have hfg := flat_get (rows := rs) (i := c) (j := j - first rs c)
          (by omega) (by rw [hrow]; exact hj2)
        rw [show first rs c + (j - first rs c) = j by omega] at hfg
        obtain ⟨_, heq⟩ := List.getElem?_eq_some_iff.1 hfg
        have hel : (rs.flatMap Prod.snd)[j] =
            (kept mapping (fun v => decide (part v = b)) (g.adj u))[j - first rs c]'hj2 := by
          rw [heq]
          simp only [hrow]
          rfl
        rw [hel]
        exact this
  · show upd s.2 b _ b = _
    rw [upd_same]
  · intro b' hb'
    show upd s.2 b _ b' = _
    rw [upd_ne _ _ hb']
  · intro x hx
    show m.cell x = _
    rw [mother, p3]
    · intro h
      apply hx
      cases x <;> simp only [EdgeIn, Region] at h ⊢ <;> omega
    · rintro rfl; exact hx ⟨by omega, by omega⟩
    · rintro rfl; exact hx ⟨by omega, by omega⟩
  · intro hok h1 h2 h3 h4
    show m.ok = true
    have hqok : q.1.ok = true := by
      apply p5 hok
      · omega
      · intro hw
        have := h4 hw
        omega
    rw [← hm1]
    split
    · rename_i hw
      have := h2 hw
      simp [Mem.store, Cell.valid, hqok, p2]
      omega
    · simp [Mem.store, Cell.valid, hqok, p2]
      omega

/-- The two sides use different cells of the temporary memory. -/
theorem sides_disjoint {n1 m1 l0 l1 e0 e1 : Nat} (h1 : l0 < n1) (h2 : e0 ≤ m1) {x : Cell} {b b' : Nat}
    (hb : b < 2) (hb' : b' < 2) (hne : b ≠ b')
    (hx : Region (b * n1) (b * m1) (if b = 0 then l0 else l1) (if b = 0 then e0 else e1) x) :
    ¬ Region (b' * n1) (b' * m1) (if b' = 0 then l0 else l1) (if b' = 0 then e0 else e1) x := by
  have : (b = 0 ∧ b' = 1) ∨ (b = 1 ∧ b' = 0) := by omega
  rcases this with ⟨rfl, rfl⟩ | ⟨rfl, rfl⟩
  · cases x <;> simp [Region] at hx ⊢ <;> omega
  · cases x <;> simp [Region] at hx ⊢ <;> omega

theorem pass2_run {g : LGraph} {part mapping : Nat → Nat} {n1 m1 : Nat} {nwf ewf : Bool}
    (hpart : ∀ u, u < g.length → part u < 2) (hmap : ∀ u, u < g.length → mapping u = rank part u)
    (hn1 : bsize g.length part 0 < n1) (hm1 : bedges g part 0 ≤ m1) (s : Mem × (Nat → Nat))
    (hz0 : s.1.cell (.node 0) = 0) (hz1 : s.1.cell (.node n1) = 0) (hz : ∀ b, s.2 b = 0) :
    ∀ j, j ≤ g.length →
    let s' := (List.range j).foldl (pass2Step g part mapping n1 m1 nwf ewf) s
    (∀ b, b < 2 → QInv s'.1.cell (b * n1) (b * m1) nwf ewf (srows g part mapping b) (bsize j part b) ∧
      s'.2 b = first (srows g part mapping b) (bsize j part b)) ∧ s'.1.size = s.1.size ∧
    (s.1.ok = true → (∀ b, b < 2 → b * n1 + bsize g.length part b < s.1.size.nodes ∧
      (nwf = true → b * n1 + bsize g.length part b ≤ s.1.size.nw) ∧
      b * m1 + bedges g part b ≤ s.1.size.edges ∧
      (ewf = true → b * m1 + bedges g part b ≤ s.1.size.ew)) → s'.1.ok = true) := by
  intro j
  induction j with
  | zero =>
    intro _
    refine ⟨?_, rfl, fun h _ => h⟩
    intro b hb
    have h0 : bsize 0 part b = 0 := rfl
    rw [h0, first_zero]
    refine ⟨⟨?_, ?_, ?_⟩, hz b⟩
    · intro i hi
      have : i = 0 := by omega
      subst this
      rw [first_zero]
      have : b = 0 ∨ b = 1 := by omega
      rcases this with rfl | rfl
      · simpa using hz0
      · simpa using hz1
    · intro _ i h; omega
    · intro j h; rw [first_zero] at h; omega
  | succ j ih =>
    intro hj
    obtain ⟨i1, i2, i3⟩ := ih (by omega)
    rw [List.range_succ, List.foldl_append, List.foldl_cons, List.foldl_nil]
    generalize hs1 : (List.range j).foldl (pass2Step g part mapping n1 m1 nwf ewf) s = s1 at *
    have hbj := hpart j (by omega)
    obtain ⟨a1, a2, a3, a4, a5, a6⟩ := pass2_step (n1 := n1) (m1 := m1) (by omega : j < g.length) hmap (i1 _ hbj).1 (i1 _ hbj).2
    intro s'
    refine ⟨?_, by rw [← i2]; exact a5, ?_⟩
    · intro b hb
      rw [bsize_succ]
      by_cases h : part j = b
      · subst h
        rw [if_pos rfl]
        exact ⟨a1, a2⟩
      · rw [if_neg h, Nat.add_zero]
        refine ⟨(i1 b hb).1.congr ?_ ?_, ?_⟩
        · rw [length_srows]; exact bsize_mono part b (by omega)
        · intro x hx
          apply a4
          rw [length_srows, srows_m] at hx
          have := sides_disjoint (l0 := bsize g.length part 0) (l1 := bsize g.length part 1) (e0 := bedges g part 0)
            (e1 := bedges g part 1) hn1 hm1 (x := x) hb hbj (Ne.symm h)
          have e1 : ∀ b, b < 2 → (if b = 0 then bsize g.length part 0 else bsize g.length part 1) = bsize g.length part b := by
            intro b hb
            have : b = 0 ∨ b = 1 := by omega
            rcases this with rfl | rfl <;> rfl
          have e2 : ∀ b, b < 2 → (if b = 0 then bedges g part 0 else bedges g part 1) = bedges g part b := by
            intro b hb
            have : b = 0 ∨ b = 1 := by omega
            rcases this with rfl | rfl <;> rfl
          rw [e1 b hb, e2 b hb, e1 _ hbj, e2 _ hbj] at this
          exact this hx
        · show s'.2 b = _
          rw [← (i1 b hb).2]
          exact a3 b (Ne.symm h)
    · intro hok hsz
      have ⟨z1, z2, z3, z4⟩ := hsz _ hbj
      apply a6 (i3 hok hsz) <;> rw [i2]
      · exact z1
      · exact z2
      · exact z3
      · exact z4

/-! ## Copying -/

theorem copyArr_spec {kind : Nat → Cell} (hinj : ∀ i j, kind i = kind j → i = j) (pos : Nat) (src : Cell → Int)
    (dst : Mem) : ∀ len,
    let r := copyArr kind len pos src dst
    (∀ i, i < len → r.cell (kind (pos + i)) = src (kind i)) ∧
    (∀ x, (∀ i, i < len → x ≠ kind (pos + i)) → r.cell x = dst.cell x) ∧ r.size = dst.size ∧
    (dst.ok = true → (∀ i, i < len → (kind (pos + i)).valid dst.size = true) → r.ok = true) := by
  intro len
  induction len with
  | zero => exact ⟨fun i h => absurd h (Nat.not_lt_zero i), fun _ _ => rfl, rfl, fun h _ => h⟩
  | succ len ih =>
    obtain ⟨i1, i2, i3, i4⟩ := ih
    intro r
    have hr : r = (copyArr kind len pos src dst).store (kind (pos + len)) (src (kind len)) := by
      show copyArr kind (len + 1) pos src dst = _
      simp only [copyArr]
      rw [List.range_succ, List.foldl_append, List.foldl_cons, List.foldl_nil]
    clear_value r
    subst hr
    refine ⟨?_, ?_, i3, ?_⟩
    · intro i hi
      rw [store_cell]
      by_cases h : i = len
      · subst h; rw [upd_same]
      · rw [upd_ne _ _ (fun e => h (by have := hinj _ _ e; omega))]
        exact i1 i (by omega)
    · intro x hx
      rw [store_cell, upd_ne _ _ (hx len (by omega))]
      exact i2 x fun i hi => hx i (by omega)
    · intro hok hv
      have h1 := i4 hok fun i hi => hv i (by omega)
      have h2 := hv len (by omega)
      simp [Mem.store, h1, i3, h2]

theorem node_inj : ∀ i j, Cell.node i = Cell.node j → i = j := fun _ _ h => by simpa using h
theorem nw_inj : ∀ i j, Cell.nw i = Cell.nw j → i = j := fun _ _ h => by simpa using h
theorem edge_inj : ∀ i j, Cell.edge i = Cell.edge j → i = j := fun _ _ h => by simpa using h
theorem ew_inj : ∀ i j, Cell.ew i = Cell.ew j → i = j := fun _ _ h => by simpa using h

/-- The cells a subgraph with room for `c` node entries and `m` edges may use. -/
def Area (npos epos c m : Nat) : Cell → Prop
  | .node i => npos ≤ i ∧ i < npos + c
  | .nw i => npos ≤ i ∧ i < npos + c
  | .edge i => epos ≤ i ∧ i < epos + m
  | .ew i => epos ≤ i ∧ i < epos + m

theorem copyAll_spec (nwf ewf : Bool) (c m npos epos : Nat) (src : Cell → Int) (dst : Mem) :
    let r := copyArr .node c npos src dst
    let r := copyArr .edge m epos src r
    let r := if nwf then copyArr .nw c npos src r else r
    let r := if ewf then copyArr .ew m epos src r else r
    (∀ i, i < c → r.cell (.node (npos + i)) = src (.node i)) ∧
    (∀ i, i < m → r.cell (.edge (epos + i)) = src (.edge i)) ∧
    (nwf = true → ∀ i, i < c → r.cell (.nw (npos + i)) = src (.nw i)) ∧
    (ewf = true → ∀ i, i < m → r.cell (.ew (epos + i)) = src (.ew i)) ∧
    (∀ x, ¬ Area npos epos c m x → r.cell x = dst.cell x) ∧ r.size = dst.size ∧
    (dst.ok = true → npos + c ≤ dst.size.nodes → epos + m ≤ dst.size.edges →
      (nwf = true → npos + c ≤ dst.size.nw) → (ewf = true → epos + m ≤ dst.size.ew) → r.ok = true) := by
  intro r1 r2 r3 r4
  obtain ⟨a1, a2, a3, a4⟩ := copyArr_spec node_inj npos src dst c
  obtain ⟨b1, b2, b3, b4⟩ := copyArr_spec edge_inj epos src r1 m
  obtain ⟨c1, c2, c3, c4⟩ := copyArr_spec nw_inj npos src r2 c
  obtain ⟨d1, d2, d3, d4⟩ := copyArr_spec ew_inj epos src r3 m
  have e1 : r1 = copyArr .node c npos src dst := rfl
  have e2 : r2 = copyArr .edge m epos src r1 := rfl
  have e3 : r3 = if nwf then copyArr .nw c npos src r2 else r2 := rfl
  have e4 : r4 = if ewf then copyArr .ew m epos src r3 else r3 := rfl
  clear_value r1 r2 r3 r4
  rw [← e1] at a1 a2 a3 a4
  rw [← e2] at b1 b2 b3 b4
  have h3 : (∀ i, r3.cell (.node i) = r2.cell (.node i)) ∧ (∀ i, r3.cell (.edge i) = r2.cell (.edge i)) ∧
      (∀ i, r3.cell (.ew i) = r2.cell (.ew i)) ∧ r3.size = r2.size ∧
      (nwf = true → ∀ i, i < c → r3.cell (.nw (npos + i)) = src (.nw i)) ∧
      (∀ i, ¬ (npos ≤ i ∧ i < npos + c) → r3.cell (.nw i) = r2.cell (.nw i)) ∧
      (r2.ok = true → (nwf = true → npos + c ≤ r2.size.nw) → r3.ok = true) := by
    rw [e3]
    by_cases h : nwf
    · rw [if_pos h]
      refine ⟨fun i => c2 _ (by simp), fun i => c2 _ (by simp), fun i => c2 _ (by simp), c3, fun _ => c1, ?_, ?_⟩
      · intro i hi
        apply c2
        intro j hj
        simp
        omega
      · intro hok hs
        have := hs h
        apply c4 hok
        intro i hi
        simp [Cell.valid]; omega
    · rw [if_neg h]
      exact ⟨fun _ => rfl, fun _ => rfl, fun _ => rfl, rfl, fun h' => absurd h' h, fun _ _ => rfl, fun hok _ => hok⟩
  obtain ⟨f1, f2, f3, f4, f5, f6, f7⟩ := h3
  have h4 : (∀ i, r4.cell (.node i) = r3.cell (.node i)) ∧ (∀ i, r4.cell (.edge i) = r3.cell (.edge i)) ∧
      (∀ i, r4.cell (.nw i) = r3.cell (.nw i)) ∧ r4.size = r3.size ∧
      (ewf = true → ∀ i, i < m → r4.cell (.ew (epos + i)) = src (.ew i)) ∧
      (∀ i, ¬ (epos ≤ i ∧ i < epos + m) → r4.cell (.ew i) = r3.cell (.ew i)) ∧
      (r3.ok = true → (ewf = true → epos + m ≤ r3.size.ew) → r4.ok = true) := by
    rw [e4]
    by_cases h : ewf
    · rw [if_pos h]
      refine ⟨fun i => d2 _ (by simp), fun i => d2 _ (by simp), fun i => d2 _ (by simp), d3, fun _ => d1, ?_, ?_⟩
      · intro i hi
        apply d2
        intro j hj
        simp
        omega
      · intro hok hs
        have := hs h
        apply d4 hok
        intro i hi
        simp [Cell.valid]; omega
    · rw [if_neg h]
      exact ⟨fun _ => rfl, fun _ => rfl, fun _ => rfl, rfl, fun h' => absurd h' h, fun _ _ => rfl, fun hok _ => hok⟩
  obtain ⟨g1, g2, g3, g4, g5, g6, g7⟩ := h4
  refine ⟨?_, ?_, ?_, ?_, ?_, ?_, ?_⟩
  · intro i hi
    rw [g1, f1, b2 _ (by simp)]
    exact a1 i hi
  · intro i hi
    rw [g2, f2]
    exact b1 i hi
  · intro h i hi
    rw [g3]
    exact f5 h i hi
  · intro h i hi
    exact g5 h i hi
  · intro x hx
    cases x with
    | node i =>
      rw [g1, f1, b2 _ (by simp)]
      apply a2
      intro j hj
      simp only [Area] at hx
      simp
      omega
    | nw i =>
      simp only [Area] at hx
      rw [g3, f6 i hx, b2 _ (by simp)]
      exact a2 _ (by simp)
    | edge i =>
      rw [g2, f2, b2, a2 _ (by simp)]
      intro j hj
      simp only [Area] at hx
      simp
      omega
    | ew i =>
      simp only [Area] at hx
      rw [g6 i hx, f3, b2 _ (by simp)]
      exact a2 _ (by simp)
  · rw [g4, f4, b3, a3]
  · intro hok z1 z2 z3 z4
    apply g7
    · apply f7
      · apply b4
        · apply a4 hok
          intro i hi
          simp [Cell.valid]; omega
        · intro i hi
          rw [a3]
          simp [Cell.valid]; omega
      · intro h
        rw [b3, a3]; exact z3 h
    · intro h
      rw [f4, b3, a3]; exact z4 h

/-! ## The whole extraction -/

theorem kept_congr {mapping mapping' : Nat → Nat} {keep : Nat → Bool} {adj : List (Nat × Int)}
    (h : ∀ e ∈ adj, mapping e.1 = mapping' e.1) : kept mapping keep adj = kept mapping' keep adj := by
  unfold kept
  apply List.map_congr_left
  intro e he
  rw [h e (List.mem_filter.1 he).1]

theorem srows_induced {g : LGraph} (hwf : g.WF) {part mapping : Nat → Nat}
    (hmap : ∀ u, u < g.length → mapping u = rank part u) (b : Nat) :
    srows g part mapping b = induced g part b := by
  unfold srows rows induced
  apply List.map_congr_left
  intro u hu
  have hu' := List.mem_range.1 (List.mem_filter.1 hu).1
  unfold row
  rw [kept_congr (mapping' := rank part)]
  · rfl
  · intro e he
    exact hmap _ (hwf _ (mem_w hu') e he)

theorem length_induced (g : LGraph) (part : Nat → Nat) (b : Nat) :
    (induced g part b).length = bsize g.length part b := by
  unfold induced
  rw [List.length_map]
  exact length_blockNodes ..

theorem induced_rows (g : LGraph) (part : Nat → Nat) (b : Nat) :
    induced g part b = srows g part (rank part) b := rfl

theorem induced_m (g : LGraph) (part : Nat → Nat) (b : Nat) : (induced g part b).m = bedges g part b := by
  rw [induced_rows]; exact srows_m ..

theorem blockNodes_lt {n : Nat} {part : Nat → Nat} {b u : Nat} (h : u ∈ blockNodes n part b) : u < n :=
  List.mem_range.1 (List.mem_filter.1 h).1

theorem induced_positive {g : LGraph} (hp : g.Positive) (part : Nat → Nat) (b : Nat) :
    (induced g part b).Positive := by
  rw [induced_rows]
  exact rows_positive hp fun u hu => blockNodes_lt hu

theorem induced_wf {g : LGraph} (hwf : g.WF) (part : Nat → Nat) (b : Nat) : (induced g part b).WF := by
  intro r hr e he
  obtain ⟨u, hu, rfl⟩ := List.mem_map.1 hr
  obtain ⟨e', he', rfl⟩ := List.mem_map.1 he
  obtain ⟨h1, h2⟩ := List.mem_filter.1 he'
  have hlt := hwf _ (mem_w (List.mem_range.1 (List.mem_filter.1 hu).1)) e' h1
  have hb : part e'.1 = b := by simpa using h2
  rw [length_induced]
  show rank part e'.1 < _
  rw [← hb]
  exact rank_lt part hlt

theorem sum_ones {l : List Int} (h : ∀ x ∈ l, x = 1) : l.sum = (l.length : Int) := by
  induction l with
  | nil => rfl
  | cons a l ih =>
    rw [List.sum_cons, h a List.mem_cons_self, ih fun x hx => h x (List.mem_cons_of_mem _ hx), List.length_cons]
    push_cast; omega

/-- A subgraph of an unweighted graph is unweighted. -/
theorem induced_nodeWeighted {g : LGraph} (hp : g.Positive) {part : Nat → Nat} {b : Nat}
    (h : (induced g part b).nodeWeighted = true) : g.nodeWeighted = true := by
  cases hg : g.nodeWeighted with
  | true => rfl
  | false =>
    exfalso
    have h1 := rows_nw (part := part) (mapping := rank part) (b := b) hp
      (fun u hu => blockNodes_lt (n := g.length) (part := part) (b := b) hu) hg
    have h2 : ((induced g part b).map Prod.fst).sum = ((induced g part b).length : Int) := by
      rw [sum_ones, List.length_map]
      intro x hx
      obtain ⟨r, hr, rfl⟩ := List.mem_map.1 hx
      exact h1 r hr
    unfold LGraph.nodeWeighted at h
    rw [h2] at h
    simp at h

theorem induced_edgeWeighted {g : LGraph} (hp : g.Positive) {part : Nat → Nat} {b : Nat}
    (h : (induced g part b).edgeWeighted = true) : g.edgeWeighted = true := by
  cases hg : g.edgeWeighted with
  | true => rfl
  | false =>
    exfalso
    have h1 := rows_ew (part := part) (mapping := rank part) (b := b) hp
      (fun u hu => blockNodes_lt (n := g.length) (part := part) (b := b) hu) hg
    have h2 : (((induced g part b).flatMap Prod.snd).map Prod.snd).sum =
        (((induced g part b).flatMap Prod.snd).length : Int) := by
      rw [sum_ones, List.length_map]
      intro x hx
      obtain ⟨y, hy, rfl⟩ := List.mem_map.1 hx
      obtain ⟨r, hr, hm⟩ := List.mem_flatMap.1 hy
      exact h1 r hr _ hm
    unfold LGraph.edgeWeighted at h
    rw [h2] at h
    simp at h

theorem ensureNodes_spec (n : Nat) (w : Bool) (s : Sizes) :
    n + 1 ≤ (ensureNodes n w s).nodes ∧ (w = true → n ≤ (ensureNodes n w s).nw) := by
  unfold ensureNodes
  cases w <;> by_cases h1 : s.nodes < n + 1 <;> by_cases h2 : s.nw < n <;> simp [h1, h2] <;> omega

theorem ensureEdges_spec (m : Nat) (w : Bool) (s : Sizes) :
    m ≤ (ensureEdges m w s).edges ∧ (w = true → m ≤ (ensureEdges m w s).ew) ∧
    (ensureEdges m w s).nodes = s.nodes ∧ (ensureEdges m w s).nw = s.nw := by
  unfold ensureEdges
  cases w <;> by_cases h1 : s.edges < m <;> by_cases h2 : s.ew < m <;> simp [h1, h2] <;> omega

theorem store_ok (m : Mem) (c : Cell) (v : Int) : (m.store c v).ok = (m.ok && c.valid m.size) := rfl

/-- The memory holds `g` at the place that `v` shows. -/
structure Held (mem : Cell → Int) (v : View) (g : LGraph) : Prop where
  n : v.n = g.length
  m : v.m = g.m
  stored : Stored mem v.npos v.epos v.nw v.ew g
  nw : v.nw = false → ∀ r ∈ g, r.1 = 1
  ew : v.ew = false → ∀ r ∈ g, ∀ e ∈ r.2, e.2 = 1

theorem Held.graph {mem : Cell → Int} {v : View} {g : LGraph} (h : Held mem v g) (hp : g.Positive) :
    v.graph mem = g := by
  have := view_stored h.stored hp h.nw h.ew
  rw [← h.n, ← h.m] at this
  exact this

theorem Held.congr {v : View} {mem mem' : Cell → Int} {g : LGraph} (hv : Held mem v g) {c : Nat} (hc : v.n < c)
    (h : ∀ x, Area v.npos v.epos c v.m x → mem' x = mem x) : Held mem' v g := by
  obtain ⟨hn, hm, hst, h1, h2⟩ := hv
  refine ⟨hn, hm, ?_, h1, h2⟩
  constructor
  · intro i hi
    rw [h (.node _) ⟨by omega, by omega⟩]; exact hst.node i hi
  · intro hw i hi
    rw [h (.nw _) ⟨by omega, by omega⟩]; exact hst.nw hw i hi
  · intro j hj
    have := hj
    rw [length_flat] at this
    rw [h (.edge _) ⟨by omega, by omega⟩]; exact hst.edge j hj
  · intro hw j hj
    have := hj
    rw [length_flat] at this
    rw [h (.ew _) ⟨by omega, by omega⟩]; exact hst.ew hw j hj

theorem extractSeq_spec {g : LGraph} (hwf : g.WF) (hp : g.Positive) {part : Nat → Nat}
    (hpart : ∀ u, u < g.length → part u < 2) {k0 k1 : Nat} (hk0 : 1 ≤ k0) (hk1 : 1 ≤ k1) (npos epos : Nat)
    (mem tmp : Mem) (map0 : Nat → Nat) :
    let r := extractSeq g part k0 k1 npos epos mem tmp map0
    Held r.1.cell r.2.2.1 (induced g part 0) ∧ Held r.1.cell r.2.2.2 (induced g part 1) ∧
    r.2.2.1 = ⟨npos, bsize g.length part 0, epos, bedges g part 0, g.nodeWeighted, g.edgeWeighted⟩ ∧
    r.2.2.2 = ⟨npos + (bsize g.length part 0 + k0), bsize g.length part 1, epos + bedges g part 0, bedges g part 1,
      g.nodeWeighted, g.edgeWeighted⟩ ∧
    (∀ x, ¬ Area npos epos (g.length + (k0 + k1)) (bedges g part 0 + bedges g part 1) x →
      r.1.cell x = mem.cell x) ∧ r.1.size = mem.size ∧
    (mem.ok = true → npos + (g.length + (k0 + k1)) ≤ mem.size.nodes →
      epos + (bedges g part 0 + bedges g part 1) ≤ mem.size.edges →
      (g.nodeWeighted = true → npos + (g.length + (k0 + k1)) ≤ mem.size.nw) →
      (g.edgeWeighted = true → epos + (bedges g part 0 + bedges g part 1) ≤ mem.size.ew) → r.1.ok = true) ∧
    (tmp.ok = true → r.2.1.ok = true) ∧
    (∀ u, u < g.length → (pass1 g part map0).mapping u = rank part u) := by
  intro r
  have hr : r = extractSeq g part k0 k1 npos epos mem tmp map0 := rfl
  clear_value r
  obtain ⟨q1, q2, q3⟩ := pass1_spec g part map0
  have hn : bsize g.length part 0 + bsize g.length part 1 = g.length := by
    have := psum_bsize (k := 2) (n := g.length) (part := part) hpart
    simpa [Contraction.psum, List.range_succ] using this
  simp only [extractSeq, q2, q3] at hr
  generalize hp1 : pass1 g part map0 = p at *
  generalize hnwf : g.nodeWeighted = nwf at *
  generalize hewf : g.edgeWeighted = ewf at *
  generalize ht1 : (Mem.mk tmp.cell (ensureNodes (g.length + (k0 + k1)) nwf tmp.size) tmp.ok) = t1 at hr
  generalize ht2 : (t1.store (.node 0) 0).store (.node (bsize g.length part 0 + k0)) 0 = t2 at hr
  generalize ht3 : (Mem.mk t2.cell (ensureEdges (bedges g part 0 + bedges g part 1) ewf t2.size) t2.ok) = t3 at hr
  have hs3 : t3.size = ensureEdges (bedges g part 0 + bedges g part 1) ewf
      (ensureNodes (g.length + (k0 + k1)) nwf tmp.size) := by
    rw [← ht3, ← ht2, ← ht1]; rfl
  obtain ⟨x1, x2⟩ := ensureNodes_spec (g.length + (k0 + k1)) nwf tmp.size
  obtain ⟨y1, y2, y3, y4⟩ := ensureEdges_spec (bedges g part 0 + bedges g part 1) ewf
    (ensureNodes (g.length + (k0 + k1)) nwf tmp.size)
  have hz0 : t3.cell (.node 0) = 0 := by
    rw [← ht3, ← ht2]
    show upd _ _ _ _ = _
    rw [upd_ne _ _ (by simp; omega), store_cell, upd_same]
  have hz1 : t3.cell (.node (bsize g.length part 0 + k0)) = 0 := by
    rw [← ht3, ← ht2]
    show upd _ _ _ _ = _
    rw [upd_same]
  obtain ⟨r1, r2, r3⟩ := pass2_run (nwf := nwf) (ewf := ewf) hpart q1
    (by omega : bsize g.length part 0 < bsize g.length part 0 + k0) (Nat.le_refl _)
    (t3, fun _ => 0) hz0 hz1 (fun _ => rfl) g.length (Nat.le_refl _)
  generalize ht4 : ((List.range g.length).foldl (pass2Step g part p.mapping (bsize g.length part 0 + k0)
    (bedges g part 0) nwf ewf) (t3, fun _ => 0)) = t4 at *
  have hq : ∀ b, b < 2 → Stored t4.1.cell (b * (bsize g.length part 0 + k0)) (b * bedges g part 0) nwf ewf
      (srows g part p.mapping b) := by
    intro b hb
    have := (r1 b hb).1
    apply QInv.stored
    rw [length_srows]
    exact this
  have hc := copyAll_spec nwf ewf (g.length + (k0 + k1)) (bedges g part 0 + bedges g part 1) npos epos t4.1.cell mem
  simp only [] at hc
  subst hr
  dsimp only at hc ⊢
  generalize (if ewf = true then copyArr Cell.ew (bedges g part 0 + bedges g part 1) epos t4.1.cell
    (if nwf = true then copyArr Cell.nw (g.length + (k0 + k1)) npos t4.1.cell
      (copyArr Cell.edge (bedges g part 0 + bedges g part 1) epos t4.1.cell
        (copyArr Cell.node (g.length + (k0 + k1)) npos t4.1.cell mem)) else
      (copyArr Cell.edge (bedges g part 0 + bedges g part 1) epos t4.1.cell
        (copyArr Cell.node (g.length + (k0 + k1)) npos t4.1.cell mem))) else
    (if nwf = true then copyArr Cell.nw (g.length + (k0 + k1)) npos t4.1.cell
      (copyArr Cell.edge (bedges g part 0 + bedges g part 1) epos t4.1.cell
        (copyArr Cell.node (g.length + (k0 + k1)) npos t4.1.cell mem)) else
      (copyArr Cell.edge (bedges g part 0 + bedges g part 1) epos t4.1.cell
        (copyArr Cell.node (g.length + (k0 + k1)) npos t4.1.cell mem)))) = rm at hc ⊢
  obtain ⟨c1, c2, c3, c4, c5, c6, c7⟩ := hc
  -- the copy of a stored graph is a stored graph
  have hcopy : ∀ nb eb (rs : LGraph), Stored t4.1.cell nb eb nwf ewf rs → nb + rs.length < g.length + (k0 + k1) →
      eb + rs.m ≤ bedges g part 0 + bedges g part 1 → Stored rm.cell (npos + nb) (epos + eb) nwf ewf rs := by
    intro nb eb rs hst h1 h2
    constructor
    · intro i hi
      rw [Nat.add_assoc, c1 _ (by omega)]
      exact hst.node i hi
    · intro hw i hi
      rw [Nat.add_assoc, c3 hw _ (by omega)]
      exact hst.nw hw i hi
    · intro j hj
      have := hj
      rw [length_flat] at this
      rw [Nat.add_assoc, c2 _ (by omega)]
      exact hst.edge j hj
    · intro hw j hj
      have := hj
      rw [length_flat] at this
      rw [Nat.add_assoc, c4 hw _ (by omega)]
      exact hst.ew hw j hj
  have hview : ∀ b nb eb, Stored rm.cell nb eb nwf ewf (srows g part p.mapping b) →
      Held rm.cell ⟨nb, bsize g.length part b, eb, bedges g part b, nwf, ewf⟩ (induced g part b) := by
    intro b nb eb hst
    rw [← srows_induced hwf q1 b]
    exact ⟨(length_srows ..).symm, (srows_m ..).symm, hst,
      fun h => rows_nw hp (fun u hu => blockNodes_lt hu) (hnwf.trans h),
      fun h => rows_ew hp (fun u hu => blockNodes_lt hu) (hewf.trans h)⟩
  refine ⟨?_, ?_, rfl, rfl, c5, c6, c7, ?_, q1⟩
  · apply hview
    have h0 := hq 0 (by omega)
    have := hcopy _ _ _ h0 (by rw [length_srows]; omega) (by rw [srows_m]; omega)
    simpa using this
  · apply hview
    have h0 := hq 1 (by omega)
    have := hcopy _ _ _ h0 (by rw [length_srows]; omega) (by rw [srows_m]; omega)
    simpa using this
  · intro hok
    apply r3
    · rw [← ht3, ← ht2]
      show (Mem.store (t1.store (.node 0) 0) (.node (bsize g.length part 0 + k0)) 0).ok = _
      rw [store_ok, store_ok, store_size, ← ht1]
      simp [Cell.valid, hok]
      omega
    · show ∀ b, b < 2 → _ < t3.size.nodes ∧ (_ → _ ≤ t3.size.nw) ∧ _ ≤ t3.size.edges ∧ (_ → _ ≤ t3.size.ew)
      rw [hs3, y3, y4]
      intro b hb
      have : b = 0 ∨ b = 1 := by omega
      rcases this with rfl | rfl
      · refine ⟨by omega, fun h => ?_, by omega, fun h => ?_⟩
        · have := x2 h; omega
        · have := y2 h; omega
      · refine ⟨by omega, fun h => ?_, by omega, fun h => ?_⟩
        · have := x2 h; omega
        · have := y2 h; omega

end Verif.Subgraph
