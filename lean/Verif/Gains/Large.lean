import Verif.Gains.Lemmas

namespace Verif.Gains
open Finset Verif.DynMaps Verif.Delta

/-! # The delta gain cache for large `k` -/

theorem largeEdge_eq {s : Dense} {m : Move} {t : Table} {adj : Nat → List Nat} {used : List Nat} (h : Good t used)
    (e : Nat × Int) :
    ∃ t1 used1 t2 used2, Good t1 used1 ∧ Good t2 used2 ∧
      deltaEdge? s.k m t e = some t2 ∧ t1.abs = upd t.abs (index s.k e.1 m.from) (some ((t.abs (index s.k e.1 m.from)).getD 0 - e.2)) ∧
      largeEdge? s m (t, adj) e = some (t2,
        if s.conn e.1 m.to = 0 ∧ (t1.abs (index s.k e.1 m.to)).getD 0 = 0 ∧ m.to ∉ adj e.1
          then upd adj e.1 (adj e.1 ++ [m.to]) else adj) := by
  obtain ⟨t1, used1, h1, h2, h3, h4⟩ := Flat.modify_ok h (index s.k e.1 m.from) fun x => x - e.2
  obtain ⟨t2, used2, g1, g2, g3, g4⟩ := Flat.modify_ok h2 (index s.k e.1 m.to) fun x => x + e.2
  refine ⟨t1, used1, t2, used2, h2, g2, ?_, h4, ?_⟩
  · unfold deltaEdge?
    simp only [h1, Option.bind_eq_bind, Option.bind_some, g1]
  · unfold largeEdge?
    simp only [h1, Option.bind_eq_bind, Option.bind_some, g1, connDelta_ok h2]

theorem largeEdges_ok {s : Dense} {m : Move} (hf : m.from < s.k) (ht : m.to < s.k) :
    ∀ (l : List (Nat × Int)) (t : Table) (adj : Nat → List Nat) (used : List Nat), Good t used →
    ∃ t' adj', l.foldlM (deltaEdge? s.k m) t = some t' ∧ l.foldlM (largeEdge? s m) (t, adj) = some (t', adj') ∧
      (∀ v b, b ∈ adj v → b ∈ adj' v) ∧
      (∀ v b, b ∈ adj' v → b ∈ adj v ∨ b = m.to ∧ s.conn v m.to = 0 ∧ ∃ e ∈ l, e.1 = v) ∧
      (∀ v, (adj v).Nodup → (adj' v).Nodup) ∧
      (∀ v, m.from ≠ m.to → (∃ e ∈ l, e.1 = v) → s.conn v m.to = 0 →
        (t.abs (index s.k v m.to)).getD 0 = 0 → m.to ∈ adj' v)
  | [], t, adj, used, h => ⟨t, adj, rfl, rfl, fun _ _ h => h, fun _ _ h => Or.inl h, fun _ h => h, by simp⟩
  | e :: l, t, adj, used, h => by
    obtain ⟨t1, u1, t2, u2, a1, a2, a3, a4, a5⟩ := largeEdge_eq (s := s) (m := m) (adj := adj) h e
    obtain ⟨_, _, c1, c2, c3, c4⟩ := deltaEdges_ok (k := s.k) (m := m) [e] t used h
    have c1 : (deltaEdge? s.k m t e >>= fun t => some t) = some _ := c1
    rw [a3] at c1
    cases c1
    set adj1 := if s.conn e.1 m.to = 0 ∧ (t1.abs (index s.k e.1 m.to)).getD 0 = 0 ∧ m.to ∉ adj e.1
          then upd adj e.1 (adj e.1 ++ [m.to]) else adj with hadj
    obtain ⟨t', adj', b1, b2, b3, b4, b5, b6⟩ := largeEdges_ok hf ht l t2 adj1 u2 a2
    have m1 : ∀ v b, b ∈ adj v → b ∈ adj1 v := by
      intro v b hb
      rw [hadj]
      split
      · by_cases hv : v = e.1
        · subst hv; rw [upd_same]; exact List.mem_append_left _ hb
        · rw [upd_ne _ _ hv]; exact hb
      · exact hb
    refine ⟨t', adj', ?_, ?_, fun v b h => b3 v b (m1 v b h), ?_, ?_, ?_⟩
    · rw [List.foldlM_cons, a3]; exact b1
    · rw [List.foldlM_cons, a5]; exact b2
    · intro v b hb
      rcases b4 v b hb with h' | ⟨h1, h2, e', he', h3⟩
      · rw [hadj] at h'
        split at h'
        · rename_i hc
          by_cases hv : v = e.1
          · subst hv
            rw [upd_same, List.mem_append, List.mem_singleton] at h'
            rcases h' with h' | h'
            · exact Or.inl h'
            · exact Or.inr ⟨h', hc.1, e, List.mem_cons_self, rfl⟩
          · rw [upd_ne _ _ hv] at h'; exact Or.inl h'
        · exact Or.inl h'
      · exact Or.inr ⟨h1, h2, e', List.mem_cons_of_mem _ he', h3⟩
    · intro v hv
      apply b5
      rw [hadj]
      split
      · rename_i hc
        by_cases hve : v = e.1
        · subst hve
          rw [upd_same]
          exact List.nodup_append.2 ⟨hv, by simp, by
            intro a ha b hb hab
            rw [List.mem_singleton] at hb
            subst hb; subst hab
            exact hc.2.2 ha⟩
        · rw [upd_ne _ _ hve]; exact hv
      · exact hv
    · intro v hne hex hz ht0
      have e1 : ∀ x, index s.k x m.to ≠ index s.k e.1 m.from := fun x h => hne (index_inj ht hf h).2.symm
      by_cases hve : e.1 = v
      · subst hve
        apply b3
        by_cases hin : m.to ∈ adj e.1
        · exact m1 _ _ hin
        · rw [hadj, if_pos ⟨hz, by rw [a4, upd_ne _ _ (e1 e.1)]; exact ht0, hin⟩, upd_same]
          exact List.mem_append_right _ (List.mem_singleton.2 rfl)
      · apply b6 v hne ?_ hz
        · rw [c4, ht0]
          have : index s.k e.1 m.to ≠ index s.k v m.to := fun h => hve (index_inj ht ht h).1
          simp [this, (e1 v).symm]
        · obtain ⟨e', he', h3⟩ := hex
          rcases List.mem_cons.1 he' with rfl | he'
          · exact absurd h3 hve
          · exact ⟨e', he', h3⟩

/-- What is known about the lists of additional adjacent blocks. -/
structure AInv (g : Graph) (k : Nat) (part v : Nat → Nat) (adj : Nat → List Nat) : Prop where
  nodup : ∀ u, u < g.n → (adj u).Nodup
  new : ∀ u b, u < g.n → b ∈ adj u → b < k ∧ g.conn u (fun x => part x = b) = 0
  all : ∀ u b, u < g.n → b < k → g.conn u (fun x => part x = b) = 0 → g.conn u (fun x => v x = b) ≠ 0 → b ∈ adj u

theorem AInv.nil (g : Graph) (k : Nat) (part : Nat → Nat) : AInv g k part part fun _ => [] :=
  ⟨fun _ _ => List.nodup_nil, fun _ _ _ h => absurd h List.not_mem_nil, fun _ _ _ _ h1 h2 => absurd h1 h2⟩

theorem wt_ne_zero {g : Graph} {u v : Nat} (h : g.wt u v ≠ 0) : ∃ e ∈ g.adj u, e.1 = v := by
  rw [g.wt_eq] at h
  revert h
  induction g.adj u with
  | nil => simp
  | cons e l ih =>
    intro h
    by_cases he : e.1 = v
    · exact ⟨e, List.mem_cons_self, he⟩
    · rw [List.map_cons, List.sum_cons, if_neg he, Int.zero_add] at h
      obtain ⟨e', h1, h2⟩ := ih h
      exact ⟨e', List.mem_cons_of_mem _ h1, h2⟩

/-- The shared cache is exact. -/
structure Shared (g : Graph) (part : Nat → Nat) (k : Nat) (c : Dense) : Prop where
  kk : c.k = k
  conn : ∀ u b, u < g.n → b < k → c.conn u b = g.conn u fun v => part v = b

theorem large_move {g : Graph} (hs : g.Symm) (hg : g.WF) (hpos : ∀ u, u < g.n → ∀ e ∈ g.adj u, 0 < e.2) {k : Nat} {part v : Nat → Nat} {c : Dense}
    (hc : Shared g part k c) {t : Table} {used : List Nat} {adj : Nat → List Nat}
    (h : LInv g k part v t used) (ha : AInv g k part v adj) (hv : ∀ u, u < g.n → v u < k) {u b : Nat} (hu : u < g.n) (hb : b < k) :
    ∃ t' adj' used', largeMove? g c (t, adj) ⟨u, v u, b⟩ = some (t', adj') ∧ LInv g k part (upd v u b) t' used' ∧
      AInv g k part (upd v u b) adj' ∧ (t'.stamp = t.stamp ∨ t'.stamp = 1) := by
  obtain ⟨t', adj', b1, b2, b3, b4, b5, b6⟩ := largeEdges_ok (s := c) (m := ⟨u, v u, b⟩)
    (by rw [hc.kk]; exact hv u hu) (by rw [hc.kk]; exact hb) (g.adj u) t adj used h.good
  obtain ⟨t'', used', c1, c2, c3⟩ := h.move hs hv hu hb
  rw [hc.kk] at b1
  have c1 : (g.adj u).foldlM (deltaEdge? k ⟨u, v u, b⟩) t = some t'' := c1
  rw [b1] at c1
  cases c1
  refine ⟨t', adj', used', b2, c2, ⟨fun x hx => b5 x (ha.nodup x hx), ?_, ?_⟩, c3⟩
  · intro x d hx hd
    rcases b4 x d hd with h' | ⟨h1, h2, e, he, h3⟩
    · exact ha.new x d hx h'
    · simp only at h1 h2
      subst h1
      rw [hc.conn x d hx hb] at h2
      exact ⟨hb, h2⟩
  · intro x d hx hd h0 h1
    by_cases h2 : g.conn x (fun y => v y = d) = 0
    · have h3 := conn_upd g x v u b d
      have h4 := conn_nonneg g (upd v u b) x d (hpos x hx)
      have hw : 0 ≤ g.wt x u := by
        have := conn_nonneg g id x u (hpos x hx)
        rw [g.wt_eq]; exact this
      have hbd : b = d := by
        rcases Nat.decEq b d with hn | hn
        · rw [if_neg hn] at h3
          split at h3 <;> omega
        · exact hn
      subst hbd
      have hne : v u ≠ b := by
        intro hvb
        rw [if_pos hvb, if_pos rfl] at h3
        omega
      rw [if_neg hne, if_pos rfl] at h3
      have hwt : g.wt u x ≠ 0 := by rw [g.wt_symm hs hu hx]; omega
      refine b6 x hne (wt_ne_zero hwt) ?_ ?_
      · rw [hc.conn x b hx hb]; exact h0
      · rw [hc.kk, h.diff x b hx hb, h2, h0]; rfl
    · exact b3 x d (ha.all x d hx hd h0 h2)

theorem large_run {g : Graph} (hs : g.Symm) (hg : g.WF) (hpos : ∀ u, u < g.n → ∀ e ∈ g.adj u, 0 < e.2) {k : Nat} {part : Nat → Nat} {c : Dense}
    (hsh : Shared g part k c) (hp : ∀ u, u < g.n → part u < k) :
    ∀ (ops : List Op) (s : LocalLarge) (v : Nat → Nat) (used used' : List Nat),
    Delta.Inv g.n g.w part v s.delta used → LInv g k part v s.tab used' → AInv g k part v s.adj → (∀ u, u < g.n → v u < k) →
    s.delta.tab.stamp + numClears ops < 2 ^ 64 → s.tab.stamp + numClears ops < 2 ^ 64 →
    (∀ op ∈ ops, op.ok g.n k) →
    ∃ s' used', ops.foldlM (LocalLarge.op? g c part) s = some s' ∧
      LInv g k part (ops.foldl (fun v op => match op with
        | .setBlock u b => upd v u b
        | .clear => part) v) s'.tab used' ∧
      AInv g k part (ops.foldl (fun v op => match op with
        | .setBlock u b => upd v u b
        | .clear => part) v) s'.adj
  | [], s, v, used, used', h1, h2, h3, _, _, _, _ => ⟨s, used', rfl, h2, h3⟩
  | .setBlock u b :: ops, s, v, used, used', h1, h2, h3, hv, hs1, hs2, hok => by
    have ho := hok _ List.mem_cons_self
    obtain ⟨d', u1, a1, a2, a3⟩ := h1.set ho.1 b
    obtain ⟨t', adj', u2, b1, b2, b3, b4⟩ := large_move hs hg hpos hsh h2 h3 hv ho.1 ho.2
    have hc : numClears (Op.setBlock u b :: ops) = numClears ops := by simp [numClears]
    have e1 := h1.stamp
    have e2 := h2.stamp
    obtain ⟨s', u3, c1, c2, c3⟩ := large_run hs hg hpos hsh hp ops ⟨d', t', adj'⟩ _ u1 u2 a2 b2 b3 (upd_lt hv ho.2)
      (by show d'.tab.stamp + _ < _; omega) (by show t'.stamp + _ < _; omega)
      (fun op h => hok op (List.mem_cons_of_mem _ h))
    refine ⟨s', u3, ?_, c2, c3⟩
    have : LocalLarge.op? g c part s (.setBlock u b) = some ⟨d', t', adj'⟩ := by
      simp only [LocalLarge.op?, h1.block u, Option.bind_eq_bind, Option.bind_some, a1, b1]
    rw [List.foldlM_cons, this]
    exact c1
  | .clear :: ops, s, v, used, used', h1, h2, h3, hv, hs1, hs2, hok => by
    have hc : numClears (Op.clear :: ops) = numClears ops + 1 := by simp [numClears]
    obtain ⟨d', u1, a1, a2⟩ := run_inv (k := k) [.clear] s.delta v used h1 (by
      have : numClears [Op.clear] = 1 := by simp [numClears]
      omega) (by intro op h; rw [List.mem_singleton.1 h]; trivial)
    have a1 : some s.delta.clear = some d' := a1
    cases a1
    have b2 := h2.clear (by omega)
    have e1 : s.delta.clear.tab.stamp = s.delta.tab.stamp + 1 := (Flat.clear_ok h1.good (by omega)).2.2
    have e2 : (Flat.clear s.tab).stamp = s.tab.stamp + 1 := (Flat.clear_ok h2.good (by omega)).2.2
    obtain ⟨s', u3, c1, c2, c3⟩ := large_run hs hg hpos hsh hp ops ⟨s.delta.clear, Flat.clear s.tab, fun _ => []⟩ part u1 [] a2 b2
      (AInv.nil g k part) hp
      (by show s.delta.clear.tab.stamp + _ < _; omega) (by show (Flat.clear s.tab).stamp + _ < _; omega)
      (fun op h => hok op (List.mem_cons_of_mem _ h))
    exact ⟨s', u3, by rw [List.foldlM_cons]; exact c1, c2, c3⟩

theorem mapM_some {α β : Type} (f : α → Option β) (h : α → β) : ∀ (l : List α), (∀ a ∈ l, f a = some (h a)) →
    l.mapM f = some (l.map h)
  | [], _ => rfl
  | a :: l, hl => by
    rw [List.mapM_cons, hl a List.mem_cons_self, mapM_some f h l fun x hx => hl x (List.mem_cons_of_mem _ hx)]
    rfl

end Verif.Gains
