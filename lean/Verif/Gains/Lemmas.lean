import Verif.Gains.Spec
import Verif.Delta.Props

namespace Verif.Gains
open Finset Verif.DynMaps Verif.Delta

/-! ## Indices -/

theorem index_inj {k a b c d : Nat} (hb : b < k) (hd : d < k) (h : index k a b = index k c d) : a = c ∧ b = d := by
  unfold index at h
  have h1 : (a * k + b) / k = a := by rw [Nat.mul_comm, Nat.mul_add_div (by omega), Nat.div_eq_of_lt hb]; omega
  have h2 : (c * k + d) / k = c := by rw [Nat.mul_comm, Nat.mul_add_div (by omega), Nat.div_eq_of_lt hd]; omega
  have h3 : a = c := by rw [← h1, ← h2, h]
  subst h3
  omega

theorem index_lt {n k a b : Nat} (ha : a < n) (hb : b < k) : index k a b < n * k := by
  unfold index
  calc a * k + b < a * k + k := by omega
    _ = (a + 1) * k := by rw [Nat.add_mul]; omega
    _ ≤ n * k := Nat.mul_le_mul_right k ha

/-! ## Connections -/

theorem conn_block (g : Graph) (v : Nat) (p : Nat → Nat) (b : Nat) :
    g.conn v (fun x => p x = b) = ((g.adj v).map fun e => if p e.1 = b then e.2 else 0).sum := rfl

theorem conn_upd (g : Graph) (v : Nat) (p : Nat → Nat) (u c b : Nat) :
    g.conn v (fun x => upd p u c x = b) =
      g.conn v (fun x => p x = b) - (if p u = b then g.wt v u else 0) + (if c = b then g.wt v u else 0) := by
  rw [conn_block, conn_block, g.wt_eq]
  induction g.adj v with
  | nil => simp
  | cons e l ih =>
    simp only [List.map_cons, List.sum_cons]
    rw [ih]
    by_cases h : e.1 = u
    · rw [h, upd_same, if_pos rfl]
      by_cases h1 : p u = b <;> by_cases h2 : c = b <;> simp only [h1, h2, if_true, if_false] <;> omega
    · rw [upd_ne _ _ h, if_neg h]
      by_cases h1 : p u = b <;> by_cases h2 : c = b <;> by_cases h3 : p e.1 = b <;>
        simp only [h1, h2, h3, if_true, if_false] <;> omega

theorem conn_congr (g : Graph) (v : Nat) {p q : Nat → Nat} (h : ∀ e ∈ g.adj v, p e.1 = q e.1) (b : Nat) :
    g.conn v (fun x => p x = b) = g.conn v (fun x => q x = b) := by
  rw [conn_block, conn_block]
  congr 1
  apply List.map_congr_left
  intro e he
  rw [h e he]

/-! ## The dense cache -/

theorem addEdges_spec (part : Nat → Nat) (u : Nat) : ∀ (l : List (Nat × Int)) (s : Dense), u < s.n →
    (∀ e ∈ l, part e.1 < s.k) →
    let r := l.foldl (Dense.addEdge part u) s
    r.n = s.n ∧ r.k = s.k ∧ r.size = s.size ∧ r.wsize = s.wsize ∧
    (∀ x b, b < s.k → r.cache (index s.k x b) = s.cache (index s.k x b) +
      if x = u then (l.map fun e => if part e.1 = b then e.2 else 0).sum else 0) ∧
    (∀ x, r.wdeg x = s.wdeg x + if x = u then (l.map Prod.snd).sum else 0)
  | [], s, _, _ => by simp
  | e :: l, s, hu, hl => by
    obtain ⟨h1, h2, h3, h4, h5, h6⟩ := addEdges_spec part u l (Dense.addEdge part u s e) hu
      (fun e' he' => hl e' (List.mem_cons_of_mem _ he'))
    have hk := hl e List.mem_cons_self
    refine ⟨h1, h2, h3, h4, ?_, ?_⟩
    · intro x b hb
      refine (h5 x b hb).trans ?_
      show upd s.cache (index s.k u (part e.1)) _ (index s.k x b) + _ = _
      by_cases hx : x = u
      · subst hx
        simp only [if_true, List.map_cons, List.sum_cons]
        by_cases hpb : part e.1 = b
        · rw [hpb, upd_same, if_pos rfl]; omega
        · rw [upd_ne _ _ (fun h => hpb (index_inj hb hk h).2.symm), if_neg hpb]; omega
      · rw [upd_ne _ _ (fun h => hx (index_inj hb hk h).1), if_neg hx, if_neg hx]
    · intro x
      refine (h6 x).trans ?_
      show upd s.wdeg u _ x + _ = _
      by_cases hx : x = u
      · subst hx
        rw [upd_same, if_pos rfl, if_pos rfl, List.map_cons, List.sum_cons]; omega
      · rw [upd_ne _ _ hx, if_neg hx, if_neg hx]

theorem recompute_spec {g : Graph} {part : Nat → Nat} {k : Nat} (hg : g.WF) (hpart : ∀ u, u < g.n → part u < k) :
    ∀ (order : List Nat) (s : Dense), s.n = g.n → s.k = k → order.Nodup → (∀ u ∈ order, u < g.n) →
    let r := order.foldl (Dense.recompute g part) s
    r.n = g.n ∧ r.k = k ∧ r.size = s.size ∧ r.wsize = s.wsize ∧
    (∀ u b, b < k → r.cache (index k u b) = s.cache (index k u b) +
      if u ∈ order then g.conn u (fun v => part v = b) else 0) ∧
    (∀ u, r.wdeg u = if u ∈ order then ((g.adj u).map Prod.snd).sum else s.wdeg u)
  | [], s, hn, hk, _, _ => by simp [hn, hk]
  | a :: order, s, hn, hk, hnd, hlt => by
    obtain ⟨ha, hnd'⟩ := List.nodup_cons.1 hnd
    have hla := hlt a List.mem_cons_self
    obtain ⟨e1, e2, e3, e4, e5, e6⟩ := addEdges_spec part a (g.adj a) { s with wdeg := upd s.wdeg a 0 }
      (by show a < s.n; omega) (fun e he => by show part e.1 < s.k; rw [hk]; exact hpart _ (hg a hla e he))
    obtain ⟨h1, h2, h3, h4, h5, h6⟩ := recompute_spec hg hpart order (Dense.recompute g part s a)
      (e1.trans hn) (e2.trans hk) hnd' (fun u hu => hlt u (List.mem_cons_of_mem _ hu))
    refine ⟨h1, h2, h3.trans e3, h4.trans e4, ?_, ?_⟩
    · intro u b hb
      refine (h5 u b hb).trans ?_
      subst hk
      have := e5 u b hb
      show (List.foldl (Dense.addEdge part a) { s with wdeg := upd s.wdeg a 0 } (g.adj a)).cache (index s.k u b) + _ = _
      rw [this]
      by_cases hu : u = a
      · subst hu
        rw [if_pos rfl, if_neg ha, if_pos List.mem_cons_self]
        rw [conn_block, Int.add_zero]
      · rw [if_neg hu]
        simp only [List.mem_cons, hu, false_or]
        omega
    · intro u
      refine (h6 u).trans ?_
      have : (Dense.recompute g part s a).wdeg u = _ := e6 u
      rw [this]
      show (if u ∈ order then _ else upd s.wdeg a 0 u + _) = _
      by_cases hu : u = a
      · subst hu
        rw [if_neg ha, upd_same, if_pos rfl, if_pos List.mem_cons_self]; omega
      · rw [upd_ne _ _ hu, if_neg hu]
        simp only [List.mem_cons, hu, false_or]
        split <;> omega

/-- What the cache should hold for a partition. -/
structure Exact (g : Graph) (part : Nat → Nat) (k : Nat) (s : Dense) : Prop where
  n : s.n = g.n
  kk : s.k = k
  size : g.n * k ≤ s.size
  wsize : g.n ≤ s.wsize
  conn : ∀ u b, u < g.n → b < k → s.cache (index k u b) = g.conn u fun v => part v = b
  wdeg : ∀ u, u < g.n → s.wdeg u = ((g.adj u).map Prod.snd).sum

theorem init_exact {g : Graph} {part : Nat → Nat} {k : Nat} (hg : g.WF) (hpart : ∀ u, u < g.n → part u < k)
    (old : Dense) {order : List Nat} (ho : order.Perm (List.range g.n)) : Exact g part k (Dense.init g part k old order) := by
  obtain ⟨h1, h2, h3, h4, h5, h6⟩ := recompute_spec hg hpart order
    ({ n := g.n, k := k, cache := fun i => if i < g.n * k then 0 else old.cache i
       size := max old.size (g.n * k), wdeg := old.wdeg, wsize := max old.wsize g.n } : Dense) rfl rfl
    (ho.nodup_iff.2 List.nodup_range) (fun u hu => List.mem_range.1 (ho.mem_iff.1 hu))
  have hmem : ∀ u, u < g.n → u ∈ order := fun u hu => ho.mem_iff.2 (List.mem_range.2 hu)
  refine ⟨h1, h2, ?_, ?_, ?_, ?_⟩
  · show _ ≤ (Dense.init g part k old order).size
    unfold Dense.init
    rw [h3]
    exact Nat.le_max_right _ _
  · show _ ≤ (Dense.init g part k old order).wsize
    unfold Dense.init
    rw [h4]
    exact Nat.le_max_right _ _
  · intro u b hu hb
    refine (h5 u b hb).trans ?_
    rw [if_pos (hmem u hu)]
    show (if index k u b < g.n * k then (0 : Int) else _) + _ = _
    rw [if_pos (index_lt hu hb)]
    omega
  · intro u hu
    refine (h6 u).trans ?_
    rw [if_pos (hmem u hu)]

/-! ## Moves -/

theorem adds_spec : ∀ (ops : List (Nat × Int)) (s : Dense),
    (ops.foldl Dense.add s).n = s.n ∧ (ops.foldl Dense.add s).k = s.k ∧ (ops.foldl Dense.add s).size = s.size ∧
    (ops.foldl Dense.add s).wsize = s.wsize ∧ (ops.foldl Dense.add s).wdeg = s.wdeg ∧
    ∀ i, (ops.foldl Dense.add s).cache i = s.cache i + (ops.map fun op => if op.1 = i then op.2 else 0).sum
  | [], s => by simp
  | op :: ops, s => by
    obtain ⟨h1, h2, h3, h4, h5, h6⟩ := adds_spec ops (s.add op)
    refine ⟨h1, h2, h3, h4, h5, ?_⟩
    intro i
    refine (h6 i).trans ?_
    show upd s.cache op.1 _ i + _ = _
    rw [List.map_cons, List.sum_cons]
    by_cases h : i = op.1
    · subst h; rw [upd_same, if_pos rfl]; omega
    · rw [upd_ne _ _ h, if_neg (Ne.symm h)]; omega

theorem moveOps_sum {g : Graph} {k v b : Nat} {m : Move} (hb : b < k) (hf : m.from < k) (ht : m.to < k) :
    ((moveOps g k m).map fun op => if op.1 = index k v b then op.2 else 0).sum =
      (if m.to = b then g.wt m.node v else 0) - (if m.from = b then g.wt m.node v else 0) := by
  unfold moveOps
  rw [g.wt_eq]
  induction g.adj m.node with
  | nil => simp
  | cons e l ih =>
    rw [List.flatMap_cons, List.map_append, List.sum_append, ih]
    simp only [List.map_cons, List.map_nil, List.sum_cons, List.sum_nil]
    have h1 : ∀ c, c < k → (index k e.1 c = index k v b ↔ e.1 = v ∧ c = b) :=
      fun c hc => ⟨index_inj hc hb, fun ⟨h, h'⟩ => by rw [h, h']⟩
    simp only [h1 _ hf, h1 _ ht]
    by_cases a1 : e.1 = v <;> by_cases a2 : m.to = b <;> by_cases a3 : m.from = b <;> simp [a1, a2, a3] <;> omega

theorem applyMoves_lt {n k : Nat} : ∀ {ms : List Move} {part : Nat → Nat}, ValidMoves n k part ms →
    (∀ u, u < n → part u < k) → ∀ u, u < n → applyMoves part ms u < k
  | [], _, _, h => h
  | m :: ms, part, ⟨_, _, h3, h4⟩, h => by
    refine applyMoves_lt (part := upd part m.node m.to) h4 ?_
    intro u hu
    by_cases hum : u = m.node
    · rw [hum, upd_same]; exact h3
    · rw [upd_ne _ _ hum]; exact h u hu

theorem moves_sum {g : Graph} (hs : g.Symm) {k v b : Nat} (hv : v < g.n) (hb : b < k) :
    ∀ (ms : List Move) (part : Nat → Nat), ValidMoves g.n k part ms → (∀ u, u < g.n → part u < k) →
    g.conn v (fun x => part x = b) +
      ((ms.flatMap (moveOps g k)).map fun op => if op.1 = index k v b then op.2 else 0).sum =
      g.conn v (fun x => applyMoves part ms x = b)
  | [], part, _, _ => by
    show _ + 0 = _
    exact Int.add_zero _
  | m :: ms, part, ⟨h1, h2, h3, h4⟩, hp => by
    have := moves_sum hs hv hb ms (upd part m.node m.to) h4 (fun u hu => by
      by_cases hum : u = m.node
      · rw [hum, upd_same]; exact h3
      · rw [upd_ne _ _ hum]; exact hp u hu)
    rw [List.flatMap_cons, List.map_append, List.sum_append, moveOps_sum hb (by rw [h2]; exact hp _ h1) h3]
    rw [conn_upd] at this
    show _ = g.conn v (fun x => applyMoves (upd part m.node m.to) ms x = b)
    rw [← this, g.wt_symm hs h1 hv, h2]
    omega

theorem move_exact {g : Graph} (hs : g.Symm) {k : Nat} {part : Nat → Nat}
    (hp : ∀ u, u < g.n → part u < k) {s : Dense} (h : Exact g part k s) {ms : List Move}
    (hm : ValidMoves g.n k part ms) {ops : List (Nat × Int)} (hops : ops.Perm (ms.flatMap (moveOps g k))) :
    Exact g (applyMoves part ms) k (ops.foldl Dense.add s) := by
  obtain ⟨a1, a2, a3, a4, a5, a6⟩ := adds_spec ops s
  refine ⟨a1.trans h.n, a2.trans h.kk, by rw [a3]; exact h.size, by rw [a4]; exact h.wsize, ?_, ?_⟩
  · intro u b hu hb
    rw [a6, h.conn u b hu hb, (hops.map _).sum_eq]
    exact moves_sum hs hu hb ms part hm hp
  · intro u hu
    rw [a5]; exact h.wdeg u hu

/-! ## The cut -/

/-- The total weight of the stored edges at `u`, split by one block. -/
theorem conn_ne (g : Graph) (u : Nat) (p : Nat → Nat) (b : Nat) :
    g.conn u (fun v => b ≠ p v) = ((g.adj u).map Prod.snd).sum - g.conn u (fun v => p v = b) := by
  unfold Graph.conn
  induction g.adj u with
  | nil => rfl
  | cons e l ih =>
    simp only [List.map_cons, List.sum_cons] at ih ⊢
    rw [ih]
    by_cases h : p e.1 = b
    · rw [if_neg (fun h' => h' h.symm), if_pos h]; omega
    · rw [if_pos (fun h' => h h'.symm), if_neg h]; omega

theorem cut_upd (g : Graph) (hg : g.WF) (hs : g.Symm) (p : Nat → Nat) {u : Nat} (hu : u < g.n) (h0 : g.wt u u = 0) (c : Nat) :
    g.cut (upd p u c) = g.cut p - (g.conn u (fun v => p v = c) - g.conn u (fun v => p v = p u)) := by
  have h1 := g.sum_conn_ne hg hs p
  have h2 := g.sum_conn_ne hg hs (upd p u c)
  have hsum : ∀ q : Nat → Nat, ∑ v ∈ range g.n, g.conn v (fun x => q v ≠ q x) =
      g.conn u (fun x => q u ≠ q x) + ∑ v ∈ (range g.n).erase u, g.conn v (fun x => q v ≠ q x) :=
    fun q => (Finset.add_sum_erase _ _ (mem_range.2 hu)).symm
  rw [hsum] at h1 h2
  have e1 : ∀ v ∈ (range g.n).erase u, g.conn v (fun x => upd p u c v ≠ upd p u c x) =
      g.conn v (fun x => p v ≠ p x) +
        ((if p v = p u then g.wt u v else 0) - (if p v = c then g.wt u v else 0)) := by
    intro v hv
    obtain ⟨hne, hv⟩ := Finset.mem_erase.1 hv
    have hv := mem_range.1 hv
    have : g.conn v (fun x => upd p u c v ≠ upd p u c x) = g.conn v (fun x => p v ≠ upd p u c x) := by
      simp only [upd_ne _ _ hne]
    rw [this, conn_ne, conn_ne, conn_upd, g.wt_symm hs hu hv]
    by_cases a : p v = p u
    · rw [if_pos a.symm, if_pos a]
      by_cases b : p v = c
      · rw [if_pos b, if_pos b.symm]; omega
      · rw [if_neg b, if_neg (Ne.symm b)]; omega
    · rw [if_neg (Ne.symm a), if_neg a]
      by_cases b : p v = c
      · rw [if_pos b, if_pos b.symm]; omega
      · rw [if_neg b, if_neg (Ne.symm b)]; omega
  rw [Finset.sum_congr rfl e1, Finset.sum_add_distrib, Finset.sum_sub_distrib] at h2
  have e2 : ∀ b, ∑ v ∈ (range g.n).erase u, (if p v = b then g.wt u v else 0) = g.conn u (fun v => p v = b) := by
    intro b
    rw [g.conn_eq_sum hg hu, ← Finset.add_sum_erase _ _ (mem_range.2 hu), h0]
    simp
  rw [e2, e2, upd_same, conn_ne, conn_upd, h0] at h2
  rw [conn_ne] at h1
  simp only [ite_self] at h2
  omega

/-! ## On the fly -/

theorem otf_conn (g : Graph) (p : Nat → Nat) (u b : Nat) : OnTheFly.conn g p u b = g.conn u fun v => p v = b := by
  have key : ∀ (l : List (Nat × Int)) (c : Int), l.foldl (fun c e => if p e.1 = b then c + e.2 else c) c =
      c + (l.map fun e => if p e.1 = b then e.2 else 0).sum := by
    intro l
    induction l with
    | nil => intro c; simp
    | cons e l ih =>
      intro c
      rw [List.foldl_cons, ih, List.map_cons, List.sum_cons]
      by_cases h : p e.1 = b <;> simp only [h, if_true, if_false] <;> omega
  unfold OnTheFly.conn
  rw [key, conn_block]; omega

theorem otf_gain (g : Graph) (p : Nat → Nat) (u a b : Nat) (h : a ≠ b) :
    OnTheFly.gain g p u a b = g.conn u (fun v => p v = b) - g.conn u (fun v => p v = a) := by
  have key : ∀ (l : List (Nat × Int)) (c : Int × Int), l.foldl (fun (c : Int × Int) e =>
      if p e.1 = a then (c.1 + e.2, c.2) else if p e.1 = b then (c.1, c.2 + e.2) else c) c =
      (c.1 + (l.map fun e => if p e.1 = a then e.2 else 0).sum, c.2 + (l.map fun e => if p e.1 = b then e.2 else 0).sum) := by
    intro l
    induction l with
    | nil => intro c; simp
    | cons e l ih =>
      intro c
      rw [List.foldl_cons, ih]
      simp only [List.map_cons, List.sum_cons]
      by_cases h1 : p e.1 = a
      · have h2 : p e.1 ≠ b := h1 ▸ h
        rw [if_pos h1, if_neg h2, if_pos h1]
        ext <;> simp only <;> omega
      · by_cases h2 : p e.1 = b
        · rw [if_neg h1, if_pos h2, if_pos h2, if_neg h1]; ext <;> simp only <;> omega
        · rw [if_neg h1, if_neg h2, if_neg h2, if_neg h1]; ext <;> simp only <;> omega
  unfold OnTheFly.gain
  rw [key, conn_block, conn_block]
  simp only
  omega

theorem otf_gain2 (g : Graph) (p : Nat → Nat) (u a : Nat) (t : Nat × Nat) (h1 : a ≠ t.1) (h2 : a ≠ t.2) (h3 : t.1 ≠ t.2) :
    OnTheFly.gain2 g p u a t =
      (g.conn u (fun v => p v = t.1) - g.conn u (fun v => p v = a), g.conn u (fun v => p v = t.2) - g.conn u (fun v => p v = a)) := by
  have key : ∀ (l : List (Nat × Int)) (c : Int × Int × Int), l.foldl (fun (c : Int × Int × Int) e =>
      if p e.1 = a then (c.1 + e.2, c.2.1, c.2.2) else if p e.1 = t.1 then (c.1, c.2.1 + e.2, c.2.2)
      else if p e.1 = t.2 then (c.1, c.2.1, c.2.2 + e.2) else c) c =
      (c.1 + (l.map fun e => if p e.1 = a then e.2 else 0).sum,
       c.2.1 + (l.map fun e => if p e.1 = t.1 then e.2 else 0).sum,
       c.2.2 + (l.map fun e => if p e.1 = t.2 then e.2 else 0).sum) := by
    intro l
    induction l with
    | nil => intro c; simp
    | cons e l ih =>
      intro c
      rw [List.foldl_cons, ih]
      simp only [List.map_cons, List.sum_cons]
      by_cases a1 : p e.1 = a
      · have a2 : p e.1 ≠ t.1 := a1 ▸ h1
        have a3 : p e.1 ≠ t.2 := a1 ▸ h2
        simp only [a1, h1, h2, if_true, if_false]
        ext <;> simp only <;> omega
      · by_cases a2 : p e.1 = t.1
        · simp only [a2, Ne.symm h1, h3, if_true, if_false]
          ext <;> simp only <;> omega
        · by_cases a3 : p e.1 = t.2
          · simp only [a3, Ne.symm h2, Ne.symm h3, if_true, if_false]
            ext <;> simp only <;> omega
          · simp only [a1, a2, a3, if_false]
            ext <;> simp only <;> omega
  unfold OnTheFly.gain2
  rw [key, conn_block, conn_block, conn_block]
  simp only
  ext <;> simp only <;> omega

theorem otf_map (p : Nat → Nat) : ∀ (l : List (Nat × Int)) (m : Nat → Int) (b : Nat),
    l.foldl (fun (m : Nat → Int) e => upd m (p e.1) (m (p e.1) + e.2)) m b =
      m b + (l.map fun e => if p e.1 = b then e.2 else 0).sum
  | [], m, b => by simp
  | e :: l, m, b => by
    rw [List.foldl_cons, otf_map p l, List.map_cons, List.sum_cons]
    by_cases h : p e.1 = b
    · rw [h, upd_same, if_pos rfl]; omega
    · rw [upd_ne _ _ (Ne.symm h), if_neg h]; omega

/-- With positive weights a node has a neighbour outside exactly if the weight outside is not zero. -/
theorem border_iff (g : Graph) (p : Nat → Nat) (u b : Nat) (hpos : ∀ e ∈ g.adj u, 0 < e.2) :
    ((g.adj u).map Prod.snd).sum ≠ g.conn u (fun v => p v = b) ↔ ∃ e ∈ g.adj u, p e.1 ≠ b := by
  rw [conn_block]
  have key : ∀ l : List (Nat × Int), (∀ e ∈ l, 0 < e.2) →
      (l.map fun e => if p e.1 = b then e.2 else 0).sum ≤ (l.map Prod.snd).sum ∧
      ((l.map Prod.snd).sum ≠ (l.map fun e => if p e.1 = b then e.2 else 0).sum ↔ ∃ e ∈ l, p e.1 ≠ b) := by
    intro l
    induction l with
    | nil => simp
    | cons e l ih =>
      intro h
      obtain ⟨h1, h2⟩ := ih fun e' he' => h e' (List.mem_cons_of_mem _ he')
      have he := h e List.mem_cons_self
      simp only [List.map_cons, List.sum_cons, List.mem_cons, exists_eq_or_imp]
      by_cases a : p e.1 = b
      · rw [if_pos a]
        refine ⟨by omega, ?_⟩
        rw [← h2]
        constructor
        · intro h3; right; omega
        · rintro (h3 | h3)
          · exact absurd a h3
          · omega
      · rw [if_neg a]
        refine ⟨by omega, ?_⟩
        constructor
        · intro _; exact Or.inl a
        · intro _; omega
  exact (key _ hpos).2

theorem conn_nonneg (g : Graph) (p : Nat → Nat) (u b : Nat) (hpos : ∀ e ∈ g.adj u, 0 < e.2) :
    0 ≤ g.conn u (fun v => p v = b) := by
  rw [conn_block]
  revert hpos
  induction g.adj u with
  | nil => simp
  | cons e l ih =>
    intro hpos
    have he := hpos e List.mem_cons_self
    have := ih fun e' he' => hpos e' (List.mem_cons_of_mem _ he')
    rw [List.map_cons, List.sum_cons]
    split <;> omega

/-! ## Deltas -/

theorem connDelta_ok {k : Nat} {t : Table} {used : List Nat} (h : Good t used) (v b : Nat) :
    connDelta? k t v b = some ((t.abs (index k v b)).getD 0) := by
  unfold connDelta?
  rw [(h.get_ok _).2]; rfl

theorem deltaEdges_ok {k : Nat} {m : Move} : ∀ (l : List (Nat × Int)) (t : Table) (used : List Nat), Good t used →
    ∃ t' used', l.foldlM (deltaEdge? k m) t = some t' ∧ Good t' used' ∧ (t'.stamp = t.stamp ∨ t'.stamp = 1) ∧
      ∀ i, (t'.abs i).getD 0 = (t.abs i).getD 0 +
        ((l.flatMap fun e => [(index k e.1 m.from, -e.2), (index k e.1 m.to, e.2)]).map
          fun op => if op.1 = i then op.2 else 0).sum
  | [], t, used, h => ⟨t, used, rfl, h, Or.inl rfl, by simp⟩
  | e :: l, t, used, h => by
    obtain ⟨t1, used1, h1, h2, h3, h4⟩ := Flat.modify_ok h (index k e.1 m.from) fun x => x - e.2
    obtain ⟨t2, used2, g1, g2, g3, g4⟩ := Flat.modify_ok h2 (index k e.1 m.to) fun x => x + e.2
    obtain ⟨t3, used3, k1, k2, k3, k4⟩ := deltaEdges_ok l t2 used2 g2
    refine ⟨t3, used3, ?_, k2, by omega, ?_⟩
    · have : deltaEdge? k m t e = some t2 := by
        unfold deltaEdge?
        simp only [h1, Option.bind_eq_bind, Option.bind_some, g1]
      rw [List.foldlM_cons, this]
      exact k1
    · intro i
      rw [k4 i, g4, h4, List.flatMap_cons, List.map_append, List.sum_append]
      simp only [List.map_cons, List.map_nil, List.sum_cons, List.sum_nil]
      by_cases a : i = index k e.1 m.to
      · subst a
        rw [upd_same]
        by_cases b : index k e.1 m.to = index k e.1 m.from
        · rw [b, upd_same]; simp
        · rw [upd_ne _ _ b, if_neg (Ne.symm b)]; simp; omega
      · rw [upd_ne _ _ a, if_neg (Ne.symm a)]
        by_cases b : i = index k e.1 m.from
        · subst b; rw [upd_same]; simp; omega
        · rw [upd_ne _ _ b, if_neg (Ne.symm b)]; omega

/-- What the delta gain cache stores about the current view. -/
structure LInv (g : Graph) (k : Nat) (part v : Nat → Nat) (t : Table) (used : List Nat) : Prop where
  good : Good t used
  stamp : 1 ≤ t.stamp
  diff : ∀ u b, u < g.n → b < k →
    (t.abs (index k u b)).getD 0 = g.conn u (fun x => v x = b) - g.conn u (fun x => part x = b)

theorem LInv.new (g : Graph) (k : Nat) (part : Nat → Nat) : LInv g k part part (Table.new 16) [] := by
  refine ⟨good_new, Nat.le_refl _, ?_⟩
  intro u b _ _
  rw [(Core.new (by omega)).2]; simp

theorem LInv.sum {g : Graph} (hs : g.Symm) {k : Nat} {part v : Nat → Nat} {t t' : Table} {used : List Nat}
    (h : LInv g k part v t used) (hv : ∀ u, u < g.n → v u < k) {u b : Nat} (hu : u < g.n) (hb : b < k)
    (h4 : ∀ i, (t'.abs i).getD 0 = (t.abs i).getD 0 +
      ((moveOps g k ⟨u, v u, b⟩).map fun op => if op.1 = i then op.2 else 0).sum) :
    ∀ x c, x < g.n → c < k →
      (t'.abs (index k x c)).getD 0 = g.conn x (fun y => upd v u b y = c) - g.conn x (fun y => part y = c) := by
  intro x c hx hc
  rw [h4, h.diff x c hx hc, moveOps_sum hc (hv u hu) hb, conn_upd, g.wt_symm hs hu hx]
  simp only
  omega

theorem LInv.move {g : Graph} (hs : g.Symm) {k : Nat} {part v : Nat → Nat} {t : Table} {used : List Nat}
    (h : LInv g k part v t used) (hv : ∀ u, u < g.n → v u < k) {u b : Nat} (hu : u < g.n) (hb : b < k) :
    ∃ t' used', deltaMove? g k t ⟨u, v u, b⟩ = some t' ∧ LInv g k part (upd v u b) t' used' ∧
      (t'.stamp = t.stamp ∨ t'.stamp = 1) := by
  obtain ⟨t', used', h1, h2, h3, h4⟩ := deltaEdges_ok (k := k) (m := ⟨u, v u, b⟩) (g.adj u) t used h.good
  refine ⟨t', used', h1, ⟨h2, ?_, h.sum hs hv hu hb h4⟩, h3⟩
  have := h.stamp; omega

theorem LInv.clear {g : Graph} {k : Nat} {part v : Nat → Nat} {t : Table} {used : List Nat}
    (h : LInv g k part v t used) (hw : t.stamp + 1 < 2 ^ 64) : LInv g k part part (Flat.clear t) [] := by
  obtain ⟨h1, h2, h3⟩ := Flat.clear_ok h.good hw
  refine ⟨h1, by omega, ?_⟩
  intro u b _ _
  rw [h2]; simp

theorem upd_lt {n k : Nat} {v : Nat → Nat} (hv : ∀ u, u < n → v u < k) {u b : Nat} (hb : b < k) :
    ∀ x, x < n → upd v u b x < k := by
  intro x hx
  by_cases h : x = u
  · rw [h, upd_same]; exact hb
  · rw [upd_ne _ _ h]; exact hv x hx

theorem local_run {g : Graph} (hs : g.Symm) {k : Nat} {part : Nat → Nat} (hp : ∀ u, u < g.n → part u < k) :
    ∀ (ops : List Op) (s : Local) (v : Nat → Nat) (used used' : List Nat),
    Delta.Inv g.n g.w part v s.delta used → LInv g k part v s.tab used' → (∀ u, u < g.n → v u < k) →
    s.delta.tab.stamp + numClears ops < 2 ^ 64 → s.tab.stamp + numClears ops < 2 ^ 64 →
    (∀ op ∈ ops, op.ok g.n k) →
    ∃ s' used used', ops.foldlM (Local.op? g k part) s = some s' ∧
      Delta.Inv g.n g.w part (ops.foldl (fun v op => match op with
        | .setBlock u b => upd v u b
        | .clear => part) v) s'.delta used ∧
      LInv g k part (ops.foldl (fun v op => match op with
        | .setBlock u b => upd v u b
        | .clear => part) v) s'.tab used'
  | [], s, v, used, used', h1, h2, _, _, _, _ => ⟨s, used, used', rfl, h1, h2⟩
  | .setBlock u b :: ops, s, v, used, used', h1, h2, hv, hs1, hs2, hok => by
    have ho := hok _ List.mem_cons_self
    obtain ⟨d', u1, a1, a2, a3⟩ := h1.set ho.1 b
    obtain ⟨t', u2, b1, b2, b3⟩ := h2.move hs hv ho.1 ho.2
    have hc : numClears (Op.setBlock u b :: ops) = numClears ops := by simp [numClears]
    have e1 := h1.stamp
    have e2 := h2.stamp
    obtain ⟨s', u3, u4, c1, c2, c3⟩ := local_run hs hp ops ⟨d', t'⟩ _ u1 u2 a2 b2 (upd_lt hv ho.2)
      (by show d'.tab.stamp + _ < _; omega) (by show t'.stamp + _ < _; omega)
      (fun op h => hok op (List.mem_cons_of_mem _ h))
    refine ⟨s', u3, u4, ?_, c2, c3⟩
    have : Local.op? g k part s (.setBlock u b) = some ⟨d', t'⟩ := by
      simp only [Local.op?, h1.block u, Option.bind_eq_bind, Option.bind_some, a1, b1]
    rw [List.foldlM_cons, this]
    exact c1
  | .clear :: ops, s, v, used, used', h1, h2, hv, hs1, hs2, hok => by
    have hc : numClears (Op.clear :: ops) = numClears ops + 1 := by simp [numClears]
    obtain ⟨d', u1, a1, a2⟩ := run_inv (k := k) [.clear] s.delta v used h1 (by
      have : numClears [Op.clear] = 1 := by simp [numClears]
      omega) (by intro op h; rw [List.mem_singleton.1 h]; trivial)
    have a1 : some s.delta.clear = some d' := a1
    cases a1
    have b2 := h2.clear (by omega)
    have e1 : s.delta.clear.tab.stamp = s.delta.tab.stamp + 1 := (Flat.clear_ok h1.good (by omega)).2.2
    have e2 : (Flat.clear s.tab).stamp = s.tab.stamp + 1 := (Flat.clear_ok h2.good (by omega)).2.2
    obtain ⟨s', u3, u4, c1, c2, c3⟩ := local_run hs hp ops ⟨s.delta.clear, Flat.clear s.tab⟩ part u1 [] a2 b2 hp
      (by show s.delta.clear.tab.stamp + _ < _; omega) (by show (Flat.clear s.tab).stamp + _ < _; omega)
      (fun op h => hok op (List.mem_cons_of_mem _ h))
    exact ⟨s', u3, u4, by rw [List.foldlM_cons]; exact c1, c2, c3⟩

end Verif.Gains
