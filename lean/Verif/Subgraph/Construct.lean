import Verif.Subgraph.Buckets

/-! Lemmas: the construction loop of the parallel extraction. -/

namespace Verif.Subgraph

/-- The row of node `u` in the subgraph of block `b`. -/
def row (g : LGraph) (part mapping : Nat → Nat) (b u : Nat) : Int × List (Nat × Int) :=
  (g.w u, kept mapping (fun v => part v = b) (g.adj u))

/-- The subgraph of block `b` with the nodes in the order of `ns`. -/
def rows (g : LGraph) (part mapping : Nat → Nat) (b : Nat) (ns : List Nat) : LGraph := ns.map (row g part mapping b)

/-- The cells used for block `b`. -/
def Region (nb eb len m : Nat) : Cell → Prop
  | .node i => nb ≤ i ∧ i ≤ nb + len
  | .nw i => nb ≤ i ∧ i < nb + len
  | .edge i => eb ≤ i ∧ i < eb + m
  | .ew i => eb ≤ i ∧ i < eb + m

/-- After `c` steps for block `b`. -/
structure CInv (g : LGraph) (part mapping nstart estart : Nat → Nat) (nwf ewf : Bool) (b : Nat) (ns : List Nat)
    (c : Nat) (s : CState) : Prop where
  u : s.u b = min c ns.length
  e : s.e b = first (rows g part mapping b ns) (min c ns.length)
  done : ∀ i, i < c → i ≤ ns.length → s.mem.cell (.node (nstart b + i)) = (first (rows g part mapping b ns) i : Int)
  todo : ∀ i, c ≤ i → (h : i < ns.length) → s.mem.cell (.node (nstart b + i)) = (ns[i] : Int)
  nw : nwf = true → ∀ i, i < c → (h : i < (rows g part mapping b ns).length) →
    s.mem.cell (.nw (nstart b + i)) = (rows g part mapping b ns)[i].1
  edge : ∀ j, j < first (rows g part mapping b ns) (min c ns.length) →
    (h : j < ((rows g part mapping b ns).flatMap Prod.snd).length) →
    s.mem.cell (.edge (estart b + j)) = (((rows g part mapping b ns).flatMap Prod.snd)[j].1 : Int) ∧
    (ewf = true → s.mem.cell (.ew (estart b + j)) = ((rows g part mapping b ns).flatMap Prod.snd)[j].2)

theorem length_rows (g : LGraph) (part mapping : Nat → Nat) (b : Nat) (ns : List Nat) :
    (rows g part mapping b ns).length = ns.length := List.length_map _

theorem construct_step {g : LGraph} {part mapping nstart estart index : Nat → Nat} {nwf ewf : Bool} {b c : Nat}
    {ns : List Nat} {s : CState} (hidx : index b = ns.length)
    (hi : CInv g part mapping nstart estart nwf ewf b ns c s) (hc : c ≤ ns.length) :
    let s' := constructStep g part mapping nstart estart index nwf ewf s b
    CInv g part mapping nstart estart nwf ewf b ns (c + 1) s' ∧
    (∀ x, ¬ Region (nstart b) (estart b) ns.length (rows g part mapping b ns).m x → s'.mem.cell x = s.mem.cell x) ∧
    (∀ b', b' ≠ b → s'.u b' = s.u b' ∧ s'.e b' = s.e b') ∧ s'.mem.size = s.mem.size ∧
    (s.mem.ok = true → nstart b + ns.length < s.mem.size.nodes → (nwf = true → nstart b + ns.length ≤ s.mem.size.nw) →
      estart b + (rows g part mapping b ns).m ≤ s.mem.size.edges →
      (ewf = true → estart b + (rows g part mapping b ns).m ≤ s.mem.size.ew) → s'.mem.ok = true) := by
  intro s'
  have hs' : s' = constructStep g part mapping nstart estart index nwf ewf s b := rfl
  clear_value s'
  have hlen := length_rows g part mapping b ns
  have hm : first (rows g part mapping b ns) ns.length = (rows g part mapping b ns).m := by
    rw [← first_length, hlen]
  by_cases hlt : c < ns.length
  · have hu : s.u b = c := by rw [hi.u]; omega
    have he : s.e b = first (rows g part mapping b ns) c := by rw [hi.e, Nat.min_eq_left hc]
    have hmin : min (c + 1) ns.length = c + 1 := by omega
    have hread : (s.mem.cell (.node (nstart b + s.u b))).toNat = ns[c] := by
      rw [hu, hi.todo c (Nat.le_refl _) hlt, Int.toNat_natCast]
    have hrow : (rows g part mapping b ns)[c]'(by omega) = row g part mapping b ns[c] := List.getElem_map _
    have hsucc := first_succ (rows := rows g part mapping b ns) (i := c) (by omega)
    rw [hrow] at hsucc
    have hle : first (rows g part mapping b ns) (c + 1) ≤ (rows g part mapping b ns).m := by
      rw [← hm]; exact first_mono (by omega)
    simp only [constructStep] at hs'
    rw [if_pos (by omega), hread] at hs'
    generalize hm1 : (if nwf = true then (s.mem.store (Cell.node (nstart b + s.u b)) ↑(s.e b)).store
      (Cell.nw (nstart b + s.u b)) (g.w ns[c]) else s.mem.store (Cell.node (nstart b + s.u b)) ↑(s.e b)) = m1 at hs'
    have hp := putEdges_spec ewf (estart b) mapping (fun v => part v = b) (g.adj ns[c]) m1 (s.e b)
    generalize hr : putEdges ewf (estart b) mapping (fun v => decide (part v = b)) (g.adj ns[c]) m1 (s.e b) = r at hs' hp
    obtain ⟨p1, p2, p3, p4, p5⟩ := hp
    have hkl : (kept mapping (fun v => decide (part v = b)) (g.adj ns[c])).length = (row g part mapping b ns[c]).2.length := rfl
    rw [hkl] at p1 p3 p5
    rw [he] at p1 p3 p4 p5
    rw [hu, he] at hm1
    -- cells of `m1`
    have m1node : m1.cell (.node (nstart b + c)) = (first (rows g part mapping b ns) c : Int) := by
      rw [← hm1]
      split
      · rw [store_cell, upd_ne _ _ (by simp), store_cell, upd_same]
      · rw [store_cell, upd_same]
    have m1nw : nwf = true → m1.cell (.nw (nstart b + c)) = g.w ns[c] := by
      intro h
      rw [← hm1, if_pos h, store_cell, upd_same]
    have m1other : ∀ x, x ≠ .node (nstart b + c) → x ≠ .nw (nstart b + c) → m1.cell x = s.mem.cell x := by
      intro x h1 h2
      rw [← hm1]
      split
      · rw [store_cell, upd_ne _ _ h2, store_cell, upd_ne _ _ h1]
      · rw [store_cell, upd_ne _ _ h1]
    have m1size : m1.size = s.mem.size := by
      rw [← hm1]; split <;> rfl
    subst hs'
    refine ⟨?_, ?_, ?_, ?_, ?_⟩
    · constructor
      · show upd s.u b _ b = _
        rw [upd_same, hu, hmin]
      · show upd s.e b _ b = _
        rw [upd_same, p1, hmin, hsucc]
      · intro i hi' hle'
        show r.1.cell _ = _
        rw [p3 _ (by simp [EdgeIn])]
        by_cases h : i = c
        · subst h; exact m1node
        · rw [m1other _ (by simp; omega) (by simp)]
          exact hi.done i (by omega) hle'
      · intro i hi' h
        show r.1.cell _ = _
        rw [p3 _ (by simp [EdgeIn]), m1other _ (by simp; omega) (by simp)]
        exact hi.todo i (by omega) h
      · intro hw i hi' h
        show r.1.cell _ = _
        rw [p3 _ (by simp [EdgeIn])]
        by_cases h' : i = c
        · subst h'
          rw [m1nw hw, hrow]
          rfl
        · rw [m1other _ (by simp) (by simp; omega)]
          exact hi.nw hw i (by omega) h
      · intro j hj h
        rw [hmin, hsucc] at hj
        show r.1.cell _ = _ ∧ (_ → r.1.cell _ = _)
        by_cases hjc : j < first (rows g part mapping b ns) c
        · rw [p3 _ (by simp only [EdgeIn]; omega), p3 _ (by simp only [EdgeIn]; omega),
            m1other _ (by simp) (by simp), m1other _ (by simp) (by simp)]
          exact hi.edge j (by rw [Nat.min_eq_left hc]; exact hjc) h
        · have hj2 : j - first (rows g part mapping b ns) c < (row g part mapping b ns[c]).2.length := by omega
          have := p4 (j - first (rows g part mapping b ns) c) hj2
          rw [show estart b + first (rows g part mapping b ns) c + (j - first (rows g part mapping b ns) c) =
            estart b + j by omega] at this
          have hfg := flat_get (rows := rows g part mapping b ns) (i := c) (j := j - first (rows g part mapping b ns) c)
            (by omega) (by rw [hrow]; exact hj2)
          rw [show first (rows g part mapping b ns) c + (j - first (rows g part mapping b ns) c) = j by omega] at hfg
          obtain ⟨_, heq⟩ := List.getElem?_eq_some_iff.1 hfg
          have hel : ((rows g part mapping b ns).flatMap Prod.snd)[j] =
              (kept mapping (fun v => decide (part v = b)) (g.adj ns[c]))[j - first (rows g part mapping b ns) c]'hj2 := by
            rw [heq]
            simp only [hrow]
            rfl
          rw [hel]
          exact this
    · intro x hx
      show r.1.cell _ = _
      rw [p3]
      · apply m1other
        · rintro rfl; exact hx ⟨by omega, by omega⟩
        · rintro rfl; exact hx ⟨by omega, by omega⟩
      · intro h
        apply hx
        cases x <;> simp only [EdgeIn, Region] at h ⊢ <;> omega
    · intro b' hb'
      exact ⟨upd_ne _ _ hb', upd_ne _ _ hb'⟩
    · show r.1.size = _
      rw [p2, m1size]
    · intro hok h1 h2 h3 h4
      show r.1.ok = true
      apply p5
      · rw [← hm1]
        split
        · rename_i hw
          have := h2 hw
          simp [Mem.store, Cell.valid, hok]
          omega
        · simp [Mem.store, Cell.valid, hok]
          omega
      · rw [m1size]; omega
      · intro hw
        have := h4 hw
        rw [m1size]; omega
  · have hceq : c = ns.length := by omega
    have hu : s.u b = ns.length := by rw [hi.u]; omega
    simp only [constructStep] at hs'
    rw [if_neg (by omega), hidx] at hs'
    have he : s.e b = first (rows g part mapping b ns) ns.length := by rw [hi.e, hceq, Nat.min_self]
    subst hs'
    have hmin : min (c + 1) ns.length = min c ns.length := by omega
    have hne : ∀ x, x ≠ .node (nstart b + ns.length) →
        (s.mem.store (.node (nstart b + ns.length)) (s.e b)).cell x = s.mem.cell x := by
      intro x h
      rw [store_cell, upd_ne _ _ h]
    refine ⟨?_, ?_, ?_, rfl, ?_⟩
    · constructor
      · rw [hmin]; exact hi.u
      · rw [hmin]; exact hi.e
      · intro i hi' hle
        show (s.mem.store _ _).cell _ = _
        by_cases h : i = ns.length
        · subst h
          rw [store_cell, upd_same, he]
        · rw [hne _ (by simp; omega)]
          exact hi.done i (by omega) hle
      · intro i h1 h2; omega
      · intro hw i hi' h
        show (s.mem.store _ _).cell _ = _
        rw [hne _ (by simp)]
        exact hi.nw hw i (by omega) h
      · intro j hj h
        show (s.mem.store _ _).cell _ = _ ∧ (_ → (s.mem.store _ _).cell _ = _)
        rw [hne _ (by simp), hne _ (by simp)]
        exact hi.edge j (by rw [← hmin]; exact hj) h
    · intro x hx
      show (s.mem.store _ _).cell _ = _
      apply hne
      rintro rfl
      exact hx ⟨by omega, Nat.le_refl _⟩
    · intro b' _; exact ⟨rfl, rfl⟩
    · intro hok h1 _ _ _
      show (s.mem.store _ _).ok = true
      simp [Mem.store, Cell.valid, hok]
      exact h1

/-- Cells of other blocks do not matter for the invariant of a block. -/
theorem CInv.congr {g : LGraph} {part mapping nstart estart : Nat → Nat} {nwf ewf : Bool} {b c : Nat}
    {ns : List Nat} {s s' : CState} (hi : CInv g part mapping nstart estart nwf ewf b ns c s)
    (hu : s'.u b = s.u b) (he : s'.e b = s.e b)
    (hx : ∀ x, Region (nstart b) (estart b) ns.length (rows g part mapping b ns).m x → s'.mem.cell x = s.mem.cell x) :
    CInv g part mapping nstart estart nwf ewf b ns c s' := by
  constructor
  · rw [hu]; exact hi.u
  · rw [he]; exact hi.e
  · intro i h1 h2; rw [hx (.node _) ⟨by omega, by omega⟩]; exact hi.done i h1 h2
  · intro i h1 h2; rw [hx (.node _) ⟨by omega, by omega⟩]; exact hi.todo i h1 h2
  · intro hw i h1 h2
    have := length_rows g part mapping b ns
    rw [hx (.nw _) ⟨by omega, by omega⟩]; exact hi.nw hw i h1 h2
  · intro j h1 h2
    have h3 := h2
    rw [length_flat] at h3
    rw [hx (.edge _) ⟨by omega, by omega⟩, hx (.ew _) ⟨by omega, by omega⟩]
    exact hi.edge j h1 h2

/-- Different blocks use different cells. -/
theorem region_disjoint {nstart estart : Nat → Nat} {len m : Nat → Nat} {k : Nat}
    (hn : ∀ b, b < k → nstart b + len b < nstart (b + 1)) (he : ∀ b, b < k → estart b + m b ≤ estart (b + 1))
    {a b : Nat} (ha : a < k) (hb : b < k) (hab : a ≠ b) {x : Cell}
    (hx : Region (nstart a) (estart a) (len a) (m a) x) : ¬ Region (nstart b) (estart b) (len b) (m b) x := by
  have hn' : ∀ i j, i < j → j ≤ k → nstart i + len i < nstart j := by
    intro i j hij hj
    induction j with
    | zero => omega
    | succ j ih =>
      rcases Nat.lt_or_eq_of_le (Nat.le_of_lt_succ hij) with h | rfl
      · have := ih h (by omega); have := hn j (by omega); omega
      · exact hn i (by omega)
  have he' : ∀ i j, i < j → j ≤ k → estart i + m i ≤ estart j := by
    intro i j hij hj
    induction j with
    | zero => omega
    | succ j ih =>
      rcases Nat.lt_or_eq_of_le (Nat.le_of_lt_succ hij) with h | rfl
      · have := ih h (by omega); have := he j (by omega); omega
      · exact he i (by omega)
  rcases Nat.lt_or_gt_of_ne hab with h | h
  · have h1 := hn' a b h (by omega)
    have h2 := he' a b h (by omega)
    cases x <;> simp only [Region] at hx ⊢ <;> omega
  · have h1 := hn' b a h (by omega)
    have h2 := he' b a h (by omega)
    cases x <;> simp only [Region] at hx ⊢ <;> omega

theorem construct_run {g : LGraph} {part mapping nstart estart index : Nat → Nat} {nwf ewf : Bool} {k : Nat}
    {ns : Nat → List Nat} (hidx : ∀ b, index b = (ns b).length)
    (hn : ∀ b, b < k → nstart b + (ns b).length < nstart (b + 1))
    (he : ∀ b, b < k → estart b + (rows g part mapping b (ns b)).m ≤ estart (b + 1)) :
    ∀ (l : List Nat) (c : Nat → Nat) (s : CState), (∀ b ∈ l, b < k) →
    (∀ b, b < k → CInv g part mapping nstart estart nwf ewf b (ns b) (c b) s) →
    (∀ b, b < k → c b + l.count b = (ns b).length + 1) →
    let s' := l.foldl (constructStep g part mapping nstart estart index nwf ewf) s
    (∀ b, b < k → CInv g part mapping nstart estart nwf ewf b (ns b) ((ns b).length + 1) s') ∧
    s'.mem.size = s.mem.size ∧
    (∀ x, (∀ b, b < k → ¬ Region (nstart b) (estart b) (ns b).length (rows g part mapping b (ns b)).m x) →
      s'.mem.cell x = s.mem.cell x) ∧
    (s.mem.ok = true →
      (∀ b, b < k → nstart b + (ns b).length < s.mem.size.nodes ∧
        (nwf = true → nstart b + (ns b).length ≤ s.mem.size.nw) ∧
        estart b + (rows g part mapping b (ns b)).m ≤ s.mem.size.edges ∧
        (ewf = true → estart b + (rows g part mapping b (ns b)).m ≤ s.mem.size.ew)) → s'.mem.ok = true)
  | [], c, s, _, hi, hc => by
    refine ⟨fun b hb => ?_, rfl, fun _ _ => rfl, fun h _ => h⟩
    have := hc b hb
    simp at this
    rw [← this]
    exact hi b hb
  | a :: l, c, s, hl, hi, hc => by
    have ha := hl a List.mem_cons_self
    have hca : c a ≤ (ns a).length := by
      have := hc a ha
      rw [List.count_cons_self] at this
      omega
    obtain ⟨h1, h2, h3, h4, h5⟩ := construct_step (index := index) (hidx a) (hi a ha) hca
    rw [List.foldl_cons]
    obtain ⟨r1, r2, r3, r4⟩ := construct_run (index := index) hidx hn he l (upd c a (c a + 1))
      (constructStep g part mapping nstart estart index nwf ewf s a) (fun b hb => hl b (List.mem_cons_of_mem _ hb))
      (by
        intro b hb
        by_cases hba : b = a
        · subst hba; rw [upd_same]; exact h1
        · rw [upd_ne _ _ hba]
          refine (hi b hb).congr (h3 b hba).1 (h3 b hba).2 fun x hx => h2 x ?_
          exact region_disjoint hn he hb ha hba hx)
      (by
        intro b hb
        have := hc b hb
        by_cases hba : b = a
        · subst hba; rw [upd_same]; rw [List.count_cons_self] at this; omega
        · rw [upd_ne _ _ hba]; rw [List.count_cons_of_ne (Ne.symm hba)] at this; omega)
    refine ⟨r1, by rw [r2, h4], ?_, ?_⟩
    · intro x hx
      rw [r3 x hx, h2 x (hx a ha)]
    · intro hok hsz
      have ⟨z1, z2, z3, z4⟩ := hsz a ha
      apply r4 (h5 hok z1 z2 z3 z4)
      intro b hb
      rw [h4]
      exact hsz b hb

/-- When the construction of a block is finished, its graph is stored. -/
theorem CInv.stored {g : LGraph} {part mapping nstart estart : Nat → Nat} {nwf ewf : Bool} {b : Nat}
    {ns : List Nat} {s : CState} (hi : CInv g part mapping nstart estart nwf ewf b ns (ns.length + 1) s) :
    Stored s.mem.cell (nstart b) (estart b) nwf ewf (rows g part mapping b ns) := by
  have hlen := length_rows g part mapping b ns
  have hm : first (rows g part mapping b ns) ns.length = (rows g part mapping b ns).m := by
    rw [← first_length, hlen]
  have hmin : min (ns.length + 1) ns.length = ns.length := by omega
  constructor
  · intro i h
    exact hi.done i (by omega) (by omega)
  · intro hw i h
    exact hi.nw hw i (by omega) h
  · intro j h
    exact (hi.edge j (by rw [hmin, hm, ← length_flat]; exact h) h).1
  · intro hw j h
    exact (hi.edge j (by rw [hmin, hm, ← length_flat]; exact h) h).2 hw

end Verif.Subgraph
