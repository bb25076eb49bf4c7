import Verif.SparseGains.Run

namespace Verif.SparseGains
open Verif.CompactMap Verif.Math Verif.Gains

/-! # Initialisation -/

section
variable {g : Graph} {k : Nat} {L : Layout} {gc : Nat} {start p : Nat → Nat}

/-- Blocks and weights of all edges of a node. -/
def full (g : Graph) (part : Nat → Nat) (v : Nat) : List (Nat × Int) := (g.adj v).map fun e => (part e.1, e.2)

theorem sum_prefix {l l' : List (Nat × Int)} (h : l <+: l') (hpos : ∀ e ∈ l', 0 < e.2) :
    (l.map Prod.snd).sum ≤ (l'.map Prod.snd).sum := by
  obtain ⟨r, rfl⟩ := h
  rw [List.map_append, List.sum_append]
  have : ∀ l : List (Nat × Int), (∀ e ∈ l, 0 < e.2) → 0 ≤ (l.map Prod.snd).sum := by
    intro l
    induction l with
    | nil => intro _; simp
    | cons a l ih =>
      intro h
      rw [List.map_cons, List.sum_cons]
      have := h a List.mem_cons_self
      have := ih fun x hx => h x (List.mem_cons_of_mem _ hx)
      omega
  have := this r fun e he => hpos e (List.mem_append_right _ he)
  omega

theorem Ctx.allowed_prefix (h : Ctx g k L gc start p) {part : Nat → Nat} (hpart : ∀ u, u < g.n → part u < k)
    {ls : Nat → List (Nat × Int)} (hls : ∀ v, v < g.n → ls v <+: full g part v) : Allowed L p fun v => blockSum (ls v) := by
  intro v hv
  have hvn : v < g.n := Nat.lt_of_lt_of_le hv h.lay.thr
  have hpos : ∀ e ∈ full g part v, e.1 < k ∧ 0 < e.2 := by
    intro e he
    unfold full at he
    obtain ⟨x, hx, rfl⟩ := List.mem_map.1 he
    exact ⟨hpart _ (h.wf v hvn x hx), h.pos v hvn x hx⟩
  refine ⟨ls v, ?_, ?_, ?_, fun _ => rfl⟩
  · have h1 := (hls v hvn).length_le
    unfold full at h1
    rw [List.length_map] at h1
    have h2 := h.lay.room v hv
    omega
  · intro e he
    rw [h.lay.kk]
    exact hpos e ((hls v hvn).subset he)
  · have h1 := sum_prefix (hls v hvn) fun e he => (hpos e he).2
    have h2 := h.fitTab v hv
    have h3 : ((full g part v).map Prod.snd).sum = wdegOf g v := by
      unfold full wdegOf
      rw [List.map_map]; rfl
    omega

/-- What holds during initialisation: `ls v` are the edges of `v` that were added so far. -/
structure IInv (g : Graph) (L : Layout) (start p : Nat → Nat) (s : St) (ls : Nat → List (Nat × Int)) : Prop where
  mem : MInv g L start p s.cache fun v => blockSum (ls v)

theorem blockSum_snoc (l : List (Nat × Int)) (e : Nat × Int) (b : Nat) :
    blockSum (l ++ [e]) b = blockSum l b + if e.1 = b then e.2 else 0 := by
  unfold blockSum
  rw [List.map_append, List.sum_append]
  simp

theorem recompute_edges (h : Ctx g k L gc start p) {part : Nat → Nat} (hpart : ∀ u, u < g.n → part u < k) {u : Nat} (hu : u < g.n) :
    ∀ (rest : List (Nat × Int)) (s : St) (ls : Nat → List (Nat × Int)), (∀ v, v < g.n → ls v <+: full g part v) →
    ls u ++ rest.map (fun e => (part e.1, e.2)) = full g part u → (∀ e ∈ rest, e ∈ g.adj u) →
    MInv g L start p s.cache (fun v => blockSum (ls v)) → (s.wdeg u : Int) = ((ls u).map Prod.snd).sum % 2 ^ L.W →
    ∃ s', rest.foldlM (recomputeEdge? L part u) s = some s' ∧
      MInv g L start p s'.cache (fun v => blockSum (upd ls u (full g part u) v)) ∧ s'.size = s.size ∧
      (s'.wdeg u : Int) = ((full g part u).map Prod.snd).sum % 2 ^ L.W ∧ ∀ v, v ≠ u → s'.wdeg v = s.wdeg v
  | [], s, ls, _, h2, _, h4, h5 => by
    rw [List.map_nil, List.append_nil] at h2
    refine ⟨s, rfl, ?_, rfl, by rw [← h2]; exact h5, fun _ _ => rfl⟩
    have : upd ls u (full g part u) = ls := by
      funext v
      by_cases hv : v = u
      · subst hv; rw [upd_same, h2]
      · rw [upd_ne _ _ hv]
    rw [this]; exact h4
  | e :: rest, s, ls, h1, h2, h3, h4, h5 => by
    have he := h3 e List.mem_cons_self
    obtain ⟨w0, w1⟩ := h.weight hu he
    have h2' : (ls u ++ [(part e.1, e.2)]) ++ rest.map (fun e => (part e.1, e.2)) = full g part u := by
      rw [List.append_assoc]; exact h2
    have h1' : ∀ v, v < g.n → upd ls u (ls u ++ [(part e.1, e.2)]) v <+: full g part v := by
      intro v hv
      by_cases hvu : v = u
      · subst hvu; rw [upd_same]; exact ⟨_, h2'⟩
      · rw [upd_ne _ _ hvu]; exact h1 v hv
    obtain ⟨c, a1, a2⟩ := add_ok h.lay h.bits h.kbits h4 (h.allowed_prefix hpart h1) (h.allowed_prefix hpart h1') hu
      (b := part e.1) (w := e.2) (by rw [h.lay.kk]; exact hpart _ (h.wf u hu e he)) w0 w1
      (by show blockSum (upd ls u _ u) _ = blockSum (ls u) _ + _
          rw [upd_same, blockSum_snoc, if_pos rfl])
      (by
        intro v' b' hne
        show blockSum (upd ls u _ v') b' = blockSum (ls v') b'
        by_cases hv : v' = u
        · subst hv
          rw [upd_same, blockSum_snoc, if_neg, Int.add_zero]
          rcases hne with hne | hne
          · exact absurd rfl hne
          · exact Ne.symm hne
        · rw [upd_ne _ _ hv])
    have hw : (toUnsigned L.W e.2 : Int) = e.2 := toUnsigned_pos w0 w1
    obtain ⟨s', b1, b2, b3, b4, b5⟩ := recompute_edges h hpart hu rest
      { s with cache := c, wdeg := upd s.wdeg u ((s.wdeg u + toUnsigned L.W e.2) % 2 ^ L.W) }
      (upd ls u (ls u ++ [(part e.1, e.2)])) h1' (by rw [upd_same]; exact h2')
      (fun x hx => h3 x (List.mem_cons_of_mem _ hx)) a2
      (by
        simp only [upd_same]
        push_cast
        rw [h5, hw, List.map_append, List.sum_append]
        simp only [List.map_cons, List.map_nil, List.sum_cons, List.sum_nil, Int.add_zero]
        exact Int.emod_add_emod _ _ _)
    refine ⟨s', ?_, ?_, b3, b4, ?_⟩
    · rw [List.foldlM_cons]
      unfold recomputeEdge?
      rw [a1]
      exact b1
    · have : upd (upd ls u (ls u ++ [(part e.1, e.2)])) u (full g part u) = upd ls u (full g part u) := by
        funext v
        by_cases hv : v = u
        · subst hv; rw [upd_same, upd_same]
        · rw [upd_ne _ _ hv, upd_ne _ _ hv, upd_ne _ _ hv]
      rw [this] at b2
      exact b2
    · intro v hv
      rw [b5 v hv]
      exact upd_ne _ _ hv

theorem recompute_all (h : Ctx g k L gc start p) {part : Nat → Nat} (hpart : ∀ u, u < g.n → part u < k) :
    ∀ (order : List Nat) (s : St) (ls : Nat → List (Nat × Int)), (∀ u ∈ order, u < g.n) → order.Nodup →
    (∀ u ∈ order, ls u = []) → (∀ v, v < g.n → v ∉ order → ls v = full g part v ∧
      (s.wdeg v : Int) = ((full g part v).map Prod.snd).sum % 2 ^ L.W) →
    MInv g L start p s.cache (fun v => blockSum (ls v)) →
    ∃ s', order.foldlM (recompute? L g part) s = some s' ∧ s'.size = s.size ∧
      ∃ ls' : Nat → List (Nat × Int), MInv g L start p s'.cache (fun v => blockSum (ls' v)) ∧
      ∀ v, v < g.n → ls' v = full g part v ∧ (s'.wdeg v : Int) = ((full g part v).map Prod.snd).sum % 2 ^ L.W
  | [], s, ls, _, _, _, h4, h5 => ⟨s, rfl, rfl, ls, h5, fun v hv => h4 v hv (by simp)⟩
  | u :: order, s, ls, h1, h2, h3, h4, h5 => by
    obtain ⟨hn1, hn2⟩ := List.nodup_cons.1 h2
    have hu := h1 u List.mem_cons_self
    have hlu := h3 u List.mem_cons_self
    have hpre : ∀ v, v < g.n → ls v <+: full g part v := by
      intro v hv
      by_cases hm : v ∈ u :: order
      · rw [h3 v hm]; exact List.nil_prefix
      · rw [(h4 v hv hm).1]
    obtain ⟨s1, a1, a2, a3, a4, a5⟩ := recompute_edges h hpart hu (g.adj u) { s with wdeg := upd s.wdeg u 0 } ls hpre
      (by rw [hlu]; rfl) (fun _ h => h) h5 (by rw [hlu]; simp)
    obtain ⟨s2, b1, b2, b3⟩ := recompute_all h hpart order s1 (upd ls u (full g part u))
      (fun x hx => h1 x (List.mem_cons_of_mem _ hx)) hn2
      (by
        intro x hx
        have : x ≠ u := by rintro rfl; exact hn1 hx
        rw [upd_ne _ _ this]
        exact h3 x (List.mem_cons_of_mem _ hx))
      (by
        intro v hv hm
        by_cases hvu : v = u
        · subst hvu; rw [upd_same]; exact ⟨rfl, a4⟩
        · rw [upd_ne _ _ hvu, a5 v hvu]
          have := h4 v hv (by simp [hvu, hm])
          refine ⟨this.1, ?_⟩
          show ((upd s.wdeg u 0 v : Nat) : Int) = _
          rw [upd_ne _ _ hvu]
          exact this.2)
      a2
    exact ⟨s2, by rw [List.foldlM_cons]; unfold recompute?; rw [a1]; exact b1, b2.trans a3, b3⟩

theorem MInv.congr {cache : Nat → Nat} {M M' : Nat → Nat → Int} (h : MInv g L start p cache M) (hthr : L.thr ≤ g.n)
    (he : ∀ v b, v < g.n → M' v b = M v b) : MInv g L start p cache M' := by
  refine ⟨?_, ?_⟩
  · intro v hv
    have : (fun b => (M' v b).toNat) = fun b => (M v b).toNat := by
      funext b; rw [he v b (by omega)]
    rw [this]; exact h.tab v hv
  · intro v b h1 h2 h3
    rw [he v b h2]; exact h.sp v b h1 h2 h3

theorem minv_zero (h : Ctx g k L gc start p) {size : Nat} (hs : gc ≤ size) (old : Nat → Nat) :
    MInv g L start p (fun i => if i < size then 0 else old i) fun _ => blockSum [] := by
  refine ⟨?_, ?_⟩
  · intro v hv
    refine Inv.congr (Inv.new _) ?_
    intro i hi
    rw [wrapper_M] at hi
    unfold win
    have h1 := h.lay.below v hv
    have h2 := h.lay.size
    exact if_pos (by omega)
  · intro v b h1 h2 h3
    have h4 := h.lay.size
    rw [← h.lay.kk] at h4
    have h5 : (v - L.thr) * L.k + L.k ≤ (g.n - L.thr) * L.k := by
      rw [show (v - L.thr) * L.k + L.k = (v - L.thr + 1) * L.k by rw [Nat.add_mul]; omega]
      exact Nat.mul_le_mul_right _ (by omega)
    rw [if_pos (by unfold indexSparse; omega)]
    simp [blockSum]

theorem blockSum_full (part : Nat → Nat) (v b : Nat) : blockSum (full g part v) b = g.conn v fun u => part u = b := by
  rw [conn_block]
  unfold blockSum full
  rw [List.map_map]; rfl

end

end Verif.SparseGains
