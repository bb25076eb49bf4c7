import Verif.LP.ClusterLemmas

/-! Lemmas for C40: merging isolated nodes and two-hop clustering. -/

namespace Verif.LP
open Finset (range mem_range)

/-- The nodes that take part in the pass. -/
structure Cand (m : MCfg) (cl0 : Nat → Nat) (cw0 : Nat → Int) (u : Nat) : Prop where
  lt : u < m.g.n
  own : cl0 u = u
  weight : cw0 u = m.g.w u
  deg : m.isolated = true ↔ m.g.adj u = []
  half : m.isolated = false → cw0 u ≤ m.maxW / 2

/-- What holds before the pass: exact weights, existing clusters, and isolated nodes are alone. -/
structure MStart (m : MCfg) (cl0 : Nat → Nat) (cw0 : Nat → Int) : Prop where
  weights : ∀ x, x < m.g.n → cw0 x = clusterWeight m.g.n m.g.w cl0 x
  inRange : ∀ u, u < m.g.n → cl0 u < m.g.n
  alone : m.isolated = true → ∀ u, u < m.g.n → m.g.adj u = [] → cl0 u = u ∧ cw0 u = m.g.w u

def POk (m : MCfg) (cl0 : Nat → Nat) (cw0 : Nat → Int) (s : MState) (t : Nat) : MPC → Prop
  | .idle => True
  | .test u c => c = u ∧ u < m.g.n ∧ m.isolated = false ∧ m.g.adj u ≠ [] ∧ cl0 u = u ∧ s.cw u = cw0 u
  | .delta u c r => c = u ∧ Cand m cl0 cw0 u ∧ s.rep t (m.key u) = some r ∧ s.cw u = cw0 u
  | .check u c r d => c = u ∧ Cand m cl0 cw0 u ∧ s.rep t (m.key u) = some r ∧ s.cw u = cw0 u ∧ d = m.g.w u
  | .add u c r d => c = u ∧ Cand m cl0 cw0 u ∧ s.rep t (m.key u) = some r ∧ s.cw u = cw0 u ∧ d = m.g.w u ∧
      s.cw r + m.g.w u ≤ m.maxW
  | .sub u c r d => c = u ∧ Cand m cl0 cw0 u ∧ s.rep t (m.key u) = some r ∧ d = m.g.w u
  | .store u c r => c = u ∧ Cand m cl0 cw0 u ∧ s.rep t (m.key u) = some r

/-- The thread has added weight to `r` and not yet finished. -/
def MPC.busy (r : Nat) : MPC → Prop
  | .sub _ _ r' _ | .store _ _ r' => r' = r
  | _ => False

def mpend (w : Nat → Int) (x : Nat) : MPC → Int
  | .sub u _ r _ => if r = x then w u else 0
  | .store u c r => (if r = x then w u else 0) - (if c = x then w u else 0)
  | _ => 0

structure MInv (m : MCfg) (T : Nat) (cl0 : Nat → Nat) (cw0 : Nat → Int) (s : MState) : Prop where
  pcok : ∀ t, t < T → POk m cl0 cw0 s t (s.pc t)
  node : ∀ t, t < T → ∀ u, (s.pc t).node? = some u → u < m.g.n ∧ s.done u = true ∧ s.cl u = u
  excl : ∀ t t', t < T → t' < T → t ≠ t' → ∀ u, (s.pc t).node? = some u → (s.pc t').node? ≠ some u
  fresh : ∀ u, s.done u = false → s.cl u = cl0 u ∧ s.cw u = cw0 u
  nocand : ∀ x, ¬ Cand m cl0 cw0 x → s.cw x = cw0 x
  rep : ∀ t, t < T → ∀ k r, s.rep t k = some r → Cand m cl0 cw0 r ∧ s.done r = true ∧ s.cl r = r ∧
    ∀ t', t' < T → (s.pc t').node? ≠ some r
  disj : ∀ t t' k k' r, t < T → t' < T → s.rep t k = some r → s.rep t' k' = some r → t = t' ∧ k = k'
  mok : m.matching = true → ∀ t, t < T → ∀ k r, s.rep t k = some r → s.cw r = m.g.w r ∨ (s.pc t).busy r
  bal : ∀ x, x < m.g.n → s.cw x = clusterWeight m.g.n m.g.w s.cl x + ∑ t ∈ range T, mpend m.g.w x (s.pc t)
  limit : ∀ x, s.cw x ≤ max (cw0 x) m.maxW
  inRange : ∀ u, u < m.g.n → s.cl u < m.g.n

theorem mpend_upd {T : Nat} (w : Nat → Int) (x : Nat) (pc : Nat → MPC) {t : Nat} (ht : t < T) (p : MPC) :
    ∑ i ∈ range T, mpend w x (upd pc t p i) = ∑ i ∈ range T, mpend w x (pc i) - mpend w x (pc t) + mpend w x p :=
  sum_upd (range T) (fun _ q => mpend w x q) pc (mem_range.2 ht) p

theorem mexcl_upd {T : Nat} {pc : Nat → MPC} {t : Nat} {p : MPC}
    (h : ∀ t t', t < T → t' < T → t ≠ t' → ∀ u, (pc t).node? = some u → (pc t').node? ≠ some u)
    (hp : ∀ u, p.node? = some u → ∀ t', t' < T → t' ≠ t → (pc t').node? ≠ some u) :
    ∀ a b, a < T → b < T → a ≠ b → ∀ u, (upd pc t p a).node? = some u → (upd pc t p b).node? ≠ some u := by
  intro a b ha hb hab u hu
  by_cases ea : a = t
  · subst ea
    rw [upd_same] at hu
    rw [upd_ne _ _ (Ne.symm hab)]
    exact hp u hu b hb (Ne.symm hab)
  · rw [upd_ne _ _ ea] at hu
    by_cases eb : b = t
    · subst eb
      rw [upd_same]
      intro h'
      exact hp u h' a ha ea hu
    · rw [upd_ne _ _ eb]
      exact h a b ha hb hab u hu

theorem mexcl_same {T : Nat} {pc : Nat → MPC} {t : Nat} (ht : t < T) {p : MPC}
    (h : ∀ t t', t < T → t' < T → t ≠ t' → ∀ u, (pc t).node? = some u → (pc t').node? ≠ some u)
    (hp : p.node? = none ∨ p.node? = (pc t).node?) :
    ∀ a b, a < T → b < T → a ≠ b → ∀ u, (upd pc t p a).node? = some u → (upd pc t p b).node? ≠ some u := by
  refine mexcl_upd h fun u hu t' ht' hne => ?_
  rcases hp with hp | hp
  · rw [hp] at hu; cases hu
  · rw [hp] at hu; exact h t t' ht ht' (Ne.symm hne) u hu

/-- The nodes of the threads after a step of thread `t`. -/
theorem node_upd {T : Nat} {pc : Nat → MPC} {t : Nat} {p : MPC} (ht : t < T)
    (hp : p.node? = none ∨ p.node? = (pc t).node?) {t' v : Nat} (ht' : t' < T)
    (h : (upd pc t p t').node? = some v) : ∃ t'', t'' < T ∧ (pc t'').node? = some v := by
  by_cases e : t' = t
  · subst e
    rw [upd_same] at h
    rcases hp with hp | hp
    · rw [hp] at h; cases h
    · exact ⟨t', ht, by rw [← hp]; exact h⟩
  · rw [upd_ne _ _ e] at h; exact ⟨t', ht', h⟩

/-- A state in which only position of thread `t` is different. -/
theorem MInv.pcOnly {m : MCfg} {T : Nat} {cl0 : Nat → Nat} {cw0 : Nat → Int} {s : MState} (h : MInv m T cl0 cw0 s)
    {t : Nat} (ht : t < T) (p : MPC) (hp : p.node? = none ∨ p.node? = (s.pc t).node?) (hok : POk m cl0 cw0 s t p)
    (hb : ∀ x, mpend m.g.w x p = mpend m.g.w x (s.pc t)) (hbusy : ∀ r, ¬ (s.pc t).busy r) :
    MInv m T cl0 cw0 { s with pc := upd s.pc t p } := by
  refine ⟨fun t' ht' => ?_, fun t' ht' u hu => ?_, mexcl_same ht h.excl hp, h.fresh, h.nocand,
    fun t' ht' k r hr => ?_, h.disj, fun hm t' ht' k r hr => ?_, fun x hx => ?_, h.limit, h.inRange⟩
  · show POk m cl0 cw0 _ t' (upd s.pc t p t')
    by_cases e : t' = t
    · subst e; rw [upd_same]; cases p <;> exact hok
    · rw [upd_ne _ _ e]
      have := h.pcok t' ht'
      cases hpc : s.pc t' <;> rw [hpc] at this <;> exact this
  · obtain ⟨t'', ht'', hn⟩ := node_upd ht hp ht' hu
    exact h.node t'' ht'' u hn
  · obtain ⟨a1, a2, a3, a4⟩ := h.rep t' ht' k r hr
    refine ⟨a1, a2, a3, fun t'' ht'' hn => ?_⟩
    obtain ⟨t3, ht3, hn⟩ := node_upd ht hp ht'' hn
    exact a4 t3 ht3 hn
  · refine (h.mok hm t' ht' k r hr).imp_right fun hby => ?_
    show (upd s.pc t p t').busy r
    rw [upd_ne]
    · exact hby
    · rintro rfl; exact hbusy r hby
  · show s.cw x = clusterWeight m.g.n m.g.w s.cl x + ∑ i ∈ range T, mpend m.g.w x (upd s.pc t p i)
    rw [mpend_upd m.g.w x s.pc ht, hb, h.bal x hx]
    omega

/-- A state in which thread `t` has finished with node `u`, which has become its representative. -/
theorem MInv.newRep {m : MCfg} {T : Nat} {cl0 : Nat → Nat} {cw0 : Nat → Int} {s : MState} (h : MInv m T cl0 cw0 s)
    {t u : Nat} (ht : t < T) (hu : Cand m cl0 cw0 u) (hdone : s.done u = true) (hcl : s.cl u = u)
    (hcw : s.cw u = cw0 u) (hnode : ∀ t', t' < T → t' ≠ t → (s.pc t').node? ≠ some u)
    (hnr : ∀ t', t' < T → ∀ k, s.rep t' k ≠ some u)
    (hb : ∀ x, mpend m.g.w x (s.pc t) = 0) (hbusy : ∀ r, ¬ (s.pc t).busy r) :
    MInv m T cl0 cw0 { s with pc := upd s.pc t .idle, rep := upd s.rep t (upd (s.rep t) (m.key u) (some u)) } := by
  have hrep : ∀ t' k r, upd s.rep t (upd (s.rep t) (m.key u) (some u)) t' k = some r →
      (t' = t ∧ k = m.key u ∧ r = u) ∨ s.rep t' k = some r := by
    intro t' k r hr
    by_cases e : t' = t
    · subst e
      rw [upd_same] at hr
      by_cases ek : k = m.key u
      · subst ek; rw [upd_same] at hr; exact Or.inl ⟨rfl, rfl, (Option.some.inj hr).symm⟩
      · rw [upd_ne _ _ ek] at hr; exact Or.inr hr
    · rw [upd_ne _ _ e] at hr; exact Or.inr hr
  refine ⟨fun t' ht' => ?_, fun t' ht' v hv => ?_, mexcl_same ht h.excl (Or.inl rfl), h.fresh, h.nocand,
    fun t' ht' k r hr => ?_, fun t1 t2 k k' r h1 h2 hr hr' => ?_, fun hm t' ht' k r hr => ?_, fun x hx => ?_, h.limit,
    h.inRange⟩
  · show POk m cl0 cw0 _ t' (upd s.pc t .idle t')
    by_cases e : t' = t
    · subst e; rw [upd_same]; trivial
    · rw [upd_ne _ _ e]
      have := h.pcok t' ht'
      have hr : ∀ k, upd s.rep t (upd (s.rep t) (m.key u) (some u)) t' k = s.rep t' k := fun k => by rw [upd_ne _ _ e]
      cases hpc : s.pc t' <;> rw [hpc] at this <;> simp only [POk] at this ⊢ <;> first | exact this | (rw [hr]; exact this)
  · obtain ⟨t'', ht'', hn⟩ := node_upd ht (Or.inl rfl) ht' hv
    exact h.node t'' ht'' v hn
  · rcases hrep t' k r hr with ⟨_, _, rfl⟩ | hr
    · refine ⟨hu, hdone, hcl, fun t'' ht'' hn => ?_⟩
      by_cases e : t'' = t
      · subst e
        have hn : (upd s.pc t'' .idle t'').node? = some r := hn
        rw [upd_same] at hn; cases hn
      · have hn : (upd s.pc t .idle t'').node? = some r := hn
        rw [upd_ne _ _ e] at hn
        exact hnode t'' ht'' e hn
    · obtain ⟨a1, a2, a3, a4⟩ := h.rep t' ht' k r hr
      refine ⟨a1, a2, a3, fun t'' ht'' hn => ?_⟩
      obtain ⟨t3, ht3, hn⟩ := node_upd ht (Or.inl rfl) ht'' hn
      exact a4 t3 ht3 hn
  · rcases hrep t1 k r hr with ⟨e1, e2, e3⟩ | hr
    · rcases hrep t2 k' r hr' with ⟨e1', e2', _⟩ | hr'
      · exact ⟨by rw [e1, e1'], by rw [e2, e2']⟩
      · rw [e3] at hr'; exact absurd hr' (hnr t2 h2 k')
    · rcases hrep t2 k' r hr' with ⟨_, _, e3⟩ | hr'
      · rw [e3] at hr; exact absurd hr (hnr t1 h1 k)
      · exact h.disj t1 t2 k k' r h1 h2 hr hr'
  · rcases hrep t' k r hr with ⟨_, _, rfl⟩ | hr
    · exact Or.inl (by show s.cw r = _; rw [hcw, hu.weight])
    · refine (h.mok hm t' ht' k r hr).imp_right fun hby => ?_
      show (upd s.pc t .idle t').busy r
      rw [upd_ne]
      · exact hby
      · rintro rfl; exact hbusy r hby
  · show s.cw x = clusterWeight m.g.n m.g.w s.cl x + ∑ i ∈ range T, mpend m.g.w x (upd s.pc t .idle i)
    rw [mpend_upd m.g.w x s.pc ht, hb, h.bal x hx]
    show _ = _ + (_ - 0 + 0)
    omega

theorem MInv.choose {m : MCfg} {T : Nat} {cl0 : Nat → Nat} {cw0 : Nat → Int} {s : MState} (h : MInv m T cl0 cw0 s)
    {t u : Nat} (ht : t < T) (hu : Cand m cl0 cw0 u) (hdone : s.done u = true) (hcl : s.cl u = u)
    (hcw : s.cw u = cw0 u) (hpc : s.pc t = .idle ∨ ∃ c, s.pc t = .test u c)
    (hnode : ∀ t', t' < T → t' ≠ t → (s.pc t').node? ≠ some u) (hnr : ∀ t', t' < T → ∀ k, s.rep t' k ≠ some u) :
    MInv m T cl0 cw0 (s.choose m t u u) := by
  have hb : ∀ x, mpend m.g.w x (s.pc t) = 0 := by rcases hpc with hpc | ⟨c, hpc⟩ <;> rw [hpc] <;> exact fun _ => rfl
  have hbusy : ∀ r, ¬ (s.pc t).busy r := by rcases hpc with hpc | ⟨c, hpc⟩ <;> rw [hpc] <;> exact fun _ h => h
  unfold MState.choose
  split
  · exact h.newRep ht hu hdone hcl hcw hnode hnr hb hbusy
  · rename_i r hr
    -- as `pcOnly`, but the thread may come from the idle position
    refine ⟨fun t' ht' => ?_, fun t' ht' v hv => ?_, ?_, h.fresh, h.nocand,
      fun t' ht' k r' hr' => ?_, h.disj, fun hm t' ht' k r' hr' => ?_, fun x hx => ?_, h.limit, h.inRange⟩
    · show POk m cl0 cw0 _ t' (upd s.pc t _ t')
      by_cases e : t' = t
      · subst e; rw [upd_same]; exact ⟨rfl, hu, hr, hcw⟩
      · rw [upd_ne _ _ e]
        have := h.pcok t' ht'
        cases hpc : s.pc t' <;> rw [hpc] at this <;> exact this
    · have hv : (upd s.pc t (.delta u u r) t').node? = some v := hv
      by_cases e : t' = t
      · subst e; rw [upd_same] at hv; cases hv; exact ⟨hu.lt, hdone, hcl⟩
      · rw [upd_ne _ _ e] at hv; exact h.node t' ht' v hv
    · exact mexcl_upd h.excl fun v hv t' ht' hne => by cases hv; exact hnode t' ht' hne
    · obtain ⟨a1, a2, a3, a4⟩ := h.rep t' ht' k r' hr'
      refine ⟨a1, a2, a3, fun t'' ht'' hn => ?_⟩
      have hn : (upd s.pc t (.delta u u r) t'').node? = some r' := hn
      by_cases e : t'' = t
      · subst e; rw [upd_same] at hn; cases hn; exact hnr t' ht' k hr'
      · rw [upd_ne _ _ e] at hn; exact a4 t'' ht'' hn
    · refine (h.mok hm t' ht' k r' hr').imp_right fun hby => ?_
      show (upd s.pc t _ t').busy r'
      rw [upd_ne]
      · exact hby
      · rintro rfl; exact hbusy r' hby
    · show s.cw x = clusterWeight m.g.n m.g.w s.cl x + ∑ i ∈ range T, mpend m.g.w x (upd s.pc t _ i)
      rw [mpend_upd m.g.w x s.pc ht, hb, h.bal x hx]
      show _ = _ + (_ - 0 + 0)
      omega

/-- A state in which the weight of one cluster `x` of thread `t` is different. -/
theorem MInv.weight {m : MCfg} {T : Nat} {cl0 : Nat → Nat} {cw0 : Nat → Int} {s : MState} (h : MInv m T cl0 cw0 s)
    {t : Nat} (ht : t < T) (p : MPC) (hp : p.node? = (s.pc t).node?) (x : Nat) (y : Int)
    (hx : (∃ k, s.rep t k = some x) ∨ (s.pc t).node? = some x ∧ Cand m cl0 cw0 x)
    (hok : POk m cl0 cw0 { s with pc := upd s.pc t p, cw := upd s.cw x y } t p)
    (hmok : m.matching = true → ∀ k r, s.rep t k = some r → (upd s.cw x y r = m.g.w r ∨ p.busy r))
    (hb : ∀ z, z < m.g.n → upd s.cw x y z = s.cw z - mpend m.g.w z (s.pc t) + mpend m.g.w z p)
    (hy : y ≤ max (cw0 x) m.maxW) :
    MInv m T cl0 cw0 { s with pc := upd s.pc t p, cw := upd s.cw x y } := by
  have hxd : s.done x = true ∧ Cand m cl0 cw0 x := by
    rcases hx with ⟨k, hk⟩ | ⟨hx, hc⟩
    · have := h.rep t ht k x hk; exact ⟨this.2.1, this.1⟩
    · exact ⟨(h.node t ht x hx).2.1, hc⟩
  -- other threads do not look at `x`
  have hxn : ∀ t', t' < T → t' ≠ t → (s.pc t').node? ≠ some x := by
    intro t' ht' hne
    rcases hx with ⟨k, hk⟩ | ⟨hx, _⟩
    · exact (h.rep t ht k x hk).2.2.2 t' ht'
    · exact h.excl t t' ht ht' (Ne.symm hne) x hx
  have hxr : ∀ t', t' < T → t' ≠ t → ∀ k, s.rep t' k ≠ some x := by
    intro t' ht' hne k hk
    rcases hx with ⟨k', hk'⟩ | ⟨hx, _⟩
    · exact hne (h.disj t' t k k' x ht' ht hk hk').1
    · exact (h.rep t' ht' k x hk).2.2.2 t ht hx
  refine ⟨fun t' ht' => ?_, fun t' ht' u hu => ?_, mexcl_same ht h.excl (Or.inr hp), fun u hu => ?_, fun z hz => ?_,
    fun t' ht' k r hr => ?_, h.disj, fun hm t' ht' k r hr => ?_, fun z hz => ?_, fun z => ?_, h.inRange⟩
  · show POk m cl0 cw0 _ t' (upd s.pc t p t')
    by_cases e : t' = t
    · subst e; rw [upd_same]; exact hok
    · rw [upd_ne _ _ e]
      have hpo := h.pcok t' ht'
      have hn := hxn t' ht' e
      have hr := hxr t' ht' e
      cases hpc : s.pc t' <;> rw [hpc] at hpo hn <;> simp only [POk] at hpo ⊢ <;> first | exact hpo | skip
      · rw [upd_ne _ _ fun e => hn (by rw [← e]; rfl)]; exact hpo
      · rw [upd_ne _ _ fun e => hn (by rw [← e]; rfl)]; exact hpo
      · rw [upd_ne _ _ fun e => hn (by rw [← e]; rfl)]; exact hpo
      · rw [upd_ne _ _ fun e => hn (by rw [← e]; rfl), upd_ne _ _ fun e => hr _ (by rw [← e]; exact hpo.2.2.1)]
        exact hpo
  · obtain ⟨t'', ht'', hn⟩ := node_upd ht (Or.inr hp) ht' hu
    exact h.node t'' ht'' u hn
  · refine ⟨(h.fresh u hu).1, ?_⟩
    show upd s.cw x y u = _
    rw [upd_ne]
    · exact (h.fresh u hu).2
    · rintro rfl; rw [hxd.1] at hu; cases hu
  · show upd s.cw x y z = _
    rw [upd_ne]
    · exact h.nocand z hz
    · rintro rfl; exact hz hxd.2
  · obtain ⟨a1, a2, a3, a4⟩ := h.rep t' ht' k r hr
    refine ⟨a1, a2, a3, fun t'' ht'' hn => ?_⟩
    obtain ⟨t3, ht3, hn⟩ := node_upd ht (Or.inr hp) ht'' hn
    exact a4 t3 ht3 hn
  · show upd s.cw x y r = _ ∨ (upd s.pc t p t').busy r
    by_cases e : t' = t
    · subst e; rw [upd_same]; exact hmok hm k r hr
    · rw [upd_ne _ _ e, upd_ne]
      · exact h.mok hm t' ht' k r hr
      · rintro rfl; exact hxr t' ht' e k hr
  · show upd s.cw x y z = clusterWeight m.g.n m.g.w s.cl z + ∑ i ∈ range T, mpend m.g.w z (upd s.pc t p i)
    rw [mpend_upd m.g.w z s.pc ht, hb z hz, h.bal z hz]
    omega
  · show upd s.cw x y z ≤ _
    by_cases e : z = x
    · subst e; rw [upd_same]; exact hy
    · rw [upd_ne _ _ e]; exact h.limit z

theorem MInv.next {m : MCfg} (hw : ∀ u, u < m.g.n → 0 ≤ m.g.w u) {T : Nat} {cl0 : Nat → Nat}
    {cw0 : Nat → Int} {s : MState} (h : MInv m T cl0 cw0 s)
    {t : Nat} (ht : t < T) : MInv m T cl0 cw0 (s.next m t) := by
  have hpo := h.pcok t ht
  unfold MState.next
  split <;> rename_i hpc <;> rw [hpc] at hpo
  · exact h
  · -- test
    rename_i u c
    obtain ⟨rfl, hn, hiso, hdeg, hcl0, hcw⟩ := hpo
    obtain ⟨_, hdone, hcl⟩ := h.node t ht c (by rw [hpc]; rfl)
    split
    · exact h.pcOnly ht _ (Or.inl rfl) trivial (by rw [hpc]; exact fun _ => rfl) (by rw [hpc]; exact fun _ h => h)
    · rename_i hcond
      have hcand : Cand m cl0 cw0 c := by
        refine ⟨hn, hcl0, ?_, ?_, fun _ => ?_⟩
        · rw [← hcw]; by_contra hne; exact hcond (Or.inr hne)
        · rw [hiso]; exact ⟨fun h => (nomatch h), fun h => absurd h hdeg⟩
        · rw [← hcw]; by_contra hgt; exact hcond (Or.inl (not_le.1 hgt))
      exact h.choose ht hcand hdone hcl hcw (Or.inr ⟨_, hpc⟩)
        (fun t' ht' hne => h.excl t t' ht ht' (Ne.symm hne) c (by rw [hpc]; rfl))
        fun t' ht' k hk => (h.rep t' ht' k c hk).2.2.2 t ht (by rw [hpc]; rfl)
  · -- delta
    rename_i u c r
    obtain ⟨rfl, hcand, hrep, hcw⟩ := hpo
    exact h.pcOnly ht _ (Or.inr (by rw [hpc]; rfl)) ⟨rfl, hcand, hrep, hcw, by rw [hcw, hcand.weight]⟩
      (by rw [hpc]; exact fun _ => rfl) (by rw [hpc]; exact fun _ h => h)
  · -- check
    rename_i u c r d
    obtain ⟨rfl, hcand, hrep, hcw, rfl⟩ := hpo
    split
    · rename_i hfit
      exact h.pcOnly ht _ (Or.inr (by rw [hpc]; rfl)) ⟨rfl, hcand, hrep, hcw, rfl, hfit⟩
        (by rw [hpc]; exact fun _ => rfl) (by rw [hpc]; exact fun _ h => h)
    · rename_i hfit
      unfold MState.reject
      split
      · -- a two-hop matching always fits
        rename_i hm
        have hm : m.matching = true ∧ m.isolated = false := by simpa using hm
        exfalso
        apply hfit
        have h1 := hcand.half hm.2
        rw [hcand.weight] at h1
        obtain ⟨hr, -⟩ := h.rep t ht _ r hrep
        have h2 := hr.half hm.2
        rw [hr.weight] at h2
        have h3 : s.cw r = m.g.w r := by
          rcases h.mok hm.1 t ht _ r hrep with h3 | h3
          · exact h3
          · rw [hpc] at h3; exact h3.elim
        omega
      · obtain ⟨_, hdone, hcl⟩ := h.node t ht c (by rw [hpc]; rfl)
        exact h.newRep ht hcand hdone hcl hcw (fun t' ht' hne => h.excl t t' ht ht' (Ne.symm hne) c (by rw [hpc]; rfl))
          (fun t' ht' k hk => (h.rep t' ht' k c hk).2.2.2 t ht (by rw [hpc]; rfl)) (by rw [hpc]; exact fun _ => rfl)
          (by rw [hpc]; exact fun _ h => h)
  · -- add
    rename_i u c r d
    obtain ⟨rfl, hcand, hrep, hcw, rfl, hfit⟩ := hpo
    refine h.weight ht (.sub c c r _) (by rw [hpc]; rfl) r _ (Or.inl ⟨_, hrep⟩) ⟨rfl, hcand, hrep, rfl⟩ ?_ ?_ ?_
    · intro hm k r' hr'
      by_cases e : r' = r
      · exact Or.inr e.symm
      · rw [upd_ne _ _ e]
        rcases h.mok hm t ht k r' hr' with h3 | h3
        · exact Or.inl h3
        · rw [hpc] at h3; exact h3.elim
    · intro z hz
      rw [hpc]
      show _ = s.cw z - 0 + (if r = z then m.g.w c else 0)
      by_cases e : z = r
      · subst e; rw [upd_same, if_pos rfl]; omega
      · rw [upd_ne _ _ e, if_neg (Ne.symm e)]; omega
    · exact le_max_of_le_right hfit
  · -- sub
    rename_i u c r d
    obtain ⟨rfl, hcand, hrep, rfl⟩ := hpo
    have hne : r ≠ c := fun e => (h.rep t ht _ r hrep).2.2.2 t ht (by rw [hpc, e]; rfl)
    refine h.weight ht (.store c c r) (by rw [hpc]; rfl) c _ (Or.inr ⟨by rw [hpc]; rfl, hcand⟩) ⟨rfl, hcand, hrep⟩ ?_ ?_ ?_
    · intro hm k r' hr'
      rw [upd_ne]
      · rcases h.mok hm t ht k r' hr' with h3 | h3
        · exact Or.inl h3
        · rw [hpc] at h3; exact Or.inr h3
      · rintro rfl
        exact (h.rep t ht k r' hr').2.2.2 t ht (by rw [hpc]; rfl)
    · intro z hz
      rw [hpc]
      show _ = s.cw z - (if r = z then m.g.w c else 0) + ((if r = z then m.g.w c else 0) - (if c = z then m.g.w c else 0))
      by_cases e : z = c
      · subst e; rw [upd_same, if_pos rfl]; omega
      · rw [upd_ne _ _ e, if_neg (Ne.symm e)]; omega
    · have := h.limit c
      have := hw c hcand.lt
      omega
  · -- store
    rename_i u c r
    obtain ⟨rfl, hcand, hrep⟩ := hpo
    obtain ⟨hr1, hr2, hr3, hr4⟩ := h.rep t ht _ r hrep
    obtain ⟨_, hdone, hcl⟩ := h.node t ht c (by rw [hpc]; rfl)
    have hrep' : ∀ t' k r', (if m.matching then upd s.rep t (upd (s.rep t) (m.key c) none) else s.rep) t' k = some r' →
        s.rep t' k = some r' ∧ (m.matching = true → t' = t → k ≠ m.key c) := by
      intro t' k r' hr'
      by_cases hm : m.matching = true
      · rw [if_pos hm] at hr'
        by_cases e : t' = t
        · subst e
          rw [upd_same] at hr'
          by_cases ek : k = m.key c
          · subst ek; rw [upd_same] at hr'; cases hr'
          · rw [upd_ne _ _ ek] at hr'; exact ⟨hr', fun _ _ => ek⟩
        · rw [upd_ne _ _ e] at hr'; exact ⟨hr', fun _ h => absurd h e⟩
      · rw [if_neg hm] at hr'; exact ⟨hr', fun h => absurd h hm⟩
    have hother : ∀ t', t' ≠ t → (if m.matching then upd s.rep t (upd (s.rep t) (m.key c) none) else s.rep) t' = s.rep t' := by
      intro t' e
      split
      · rw [upd_ne _ _ e]
      · rfl
    refine ⟨fun t' ht' => ?_, fun t' ht' v hv => ?_, mexcl_same ht h.excl (Or.inl rfl), fun v hv => ?_, h.nocand,
      fun t' ht' k r' hr' => ?_, fun t1 t2 k k' r' h1 h2 hra hrb => ?_, fun hm t' ht' k r' hr' => ?_, fun x hx => ?_,
      h.limit, fun v hv => ?_⟩
    · show POk m cl0 cw0 _ t' (upd s.pc t .idle t')
      by_cases e : t' = t
      · subst e; rw [upd_same]; trivial
      · rw [upd_ne _ _ e]
        have hpo := h.pcok t' ht'
        have ho := hother t' e
        cases hpc' : s.pc t' <;> rw [hpc'] at hpo <;> simp only [POk] at hpo ⊢ <;> first | exact hpo | (rw [ho]; exact hpo)
    · have hv' : (upd s.pc t .idle t').node? = some v := hv
      by_cases e : t' = t
      · subst e; rw [upd_same] at hv'; cases hv'
      · rw [upd_ne _ _ e] at hv'
        obtain ⟨b1, b2, b3⟩ := h.node t' ht' v hv'
        refine ⟨b1, b2, ?_⟩
        show upd s.cl c r v = v
        rw [upd_ne]
        · exact b3
        · rintro rfl; exact h.excl t t' ht ht' (Ne.symm e) v (by rw [hpc]; rfl) hv'
    · refine ⟨?_, (h.fresh v hv).2⟩
      show upd s.cl c r v = _
      rw [upd_ne]
      · exact (h.fresh v hv).1
      · rintro rfl
        rw [show s.done v = false from hv] at hdone; cases hdone
    · obtain ⟨a1, a2, a3, a4⟩ := h.rep t' ht' k r' (hrep' t' k r' hr').1
      refine ⟨a1, a2, ?_, fun t'' ht'' hn => ?_⟩
      · show upd s.cl c r r' = r'
        rw [upd_ne]
        · exact a3
        · rintro rfl; exact a4 t ht (by rw [hpc]; rfl)
      · obtain ⟨t3, ht3, hn⟩ := node_upd ht (Or.inl rfl) ht'' hn
        exact a4 t3 ht3 hn
    · exact h.disj t1 t2 k k' r' h1 h2 (hrep' _ _ _ hra).1 (hrep' _ _ _ hrb).1
    · obtain ⟨ho, hk⟩ := hrep' t' k r' hr'
      rcases h.mok hm t' ht' k r' ho with h3 | h3
      · exact Or.inl h3
      · refine Or.inr ?_
        show (upd s.pc t .idle t').busy r'
        rw [upd_ne]
        · exact h3
        · rintro rfl
          rw [hpc] at h3
          have h3 : r = r' := h3
          subst h3
          exact hk hm rfl (h.disj t' t' k _ r ht ht ho hrep).2
    · show s.cw x = clusterWeight m.g.n m.g.w (upd s.cl c r) x + ∑ i ∈ range T, mpend m.g.w x (upd s.pc t .idle i)
      rw [mpend_upd m.g.w x s.pc ht, hpc, clusterWeight_upd m.g.w s.cl hcand.lt, hcl, h.bal x hx]
      show _ = _ + (_ - ((if r = x then m.g.w c else 0) - (if c = x then m.g.w c else 0)) + 0)
      omega
    · show upd s.cl c r v < m.g.n
      by_cases e : v = c
      · subst e; rw [upd_same]; exact hr1.lt
      · rw [upd_ne _ _ e]; exact h.inRange v hv

theorem MInv.done {m : MCfg} {T : Nat} {cl0 : Nat → Nat} {cw0 : Nat → Int} {s : MState} (h : MInv m T cl0 cw0 s) (u : Nat) :
    MInv m T cl0 cw0 { s with done := upd s.done u true } := by
  have hd : ∀ v, s.done v = true → upd s.done u true v = true := by
    intro v hv
    by_cases e : v = u
    · subst e; exact upd_same ..
    · rw [upd_ne _ _ e]; exact hv
  refine ⟨fun t ht => ?_, fun t ht v hv => ?_, h.excl, fun v hv => ?_, h.nocand, fun t ht k r hr => ?_, h.disj, h.mok, h.bal,
    h.limit, h.inRange⟩
  · have := h.pcok t ht
    show POk m cl0 cw0 _ t (s.pc t)
    cases hpc : s.pc t <;> rw [hpc] at this <;> exact this
  · obtain ⟨a, b, c⟩ := h.node t ht v hv
    exact ⟨a, hd v b, c⟩
  · refine h.fresh v ?_
    have hv : upd s.done u true v = false := hv
    by_cases e : v = u
    · subst e; rw [upd_same] at hv; cases hv
    · rw [upd_ne _ _ e] at hv; exact hv
  · obtain ⟨a, b, c, d⟩ := h.rep t ht k r hr
    exact ⟨a, hd r b, c, d⟩

theorem MInv.begin {m : MCfg} {T : Nat} {cl0 : Nat → Nat} {cw0 : Nat → Int} (hst : MStart m cl0 cw0) {s : MState}
    (h : MInv m T cl0 cw0 s) {t u : Nat} (ht : t < T) (hu : u < m.g.n) (hidle : s.pc t = .idle) (hnew : s.done u = false) :
    MInv m T cl0 cw0 (s.begin m t u) := by
  have h' := h.done u
  obtain ⟨hcl, hcw⟩ := h.fresh u hnew
  have hnode : ∀ t', t' < T → (s.pc t').node? ≠ some u := fun t' ht' hn => by
    rw [(h.node t' ht' u hn).2.1] at hnew; cases hnew
  have hnr : ∀ t', t' < T → ∀ k, s.rep t' k ≠ some u := fun t' ht' k hk => by
    rw [(h.rep t' ht' k u hk).2.1] at hnew; cases hnew
  unfold MState.begin
  by_cases hiso : m.isolated = true
  · simp only [hiso, if_true]
    by_cases hdeg : m.g.adj u = []
    · rw [if_pos hdeg]
      obtain ⟨ho, hwt⟩ := hst.alone hiso u hu hdeg
      have hcu : s.cl u = u := by rw [hcl, ho]
      rw [hcu]
      exact h'.choose ht ⟨hu, ho, hwt, by rw [hiso]; exact ⟨fun _ => hdeg, fun _ => rfl⟩, fun h => by rw [hiso] at h; cases h⟩
        (upd_same ..) hcu hcw (Or.inl hidle) (fun t' ht' _ => hnode t' ht') hnr
    · rw [if_neg hdeg]; exact h'
  · have hiso' : m.isolated = false := by simpa using hiso
    simp only [hiso', Bool.false_eq_true, if_false]
    by_cases hdeg : m.g.adj u = []
    · rw [if_pos hdeg]; exact h'
    · rw [if_neg hdeg]
      by_cases ho : u = s.cl u
      · rw [if_neg (not_not.2 ho)]
        refine ⟨fun t' ht' => ?_, fun t' ht' v hv => ?_, ?_, h'.fresh, h'.nocand,
          fun t' ht' k r' hr' => ?_, h'.disj, fun hm t' ht' k r' hr' => ?_, fun x hx => ?_, h'.limit, h'.inRange⟩
        · show POk m cl0 cw0 _ t' (upd s.pc t _ t')
          by_cases e : t' = t
          · subst e; rw [upd_same]; exact ⟨ho.symm, hu, hiso', hdeg, by rw [← hcl]; exact ho.symm, hcw⟩
          · rw [upd_ne _ _ e]
            have := h'.pcok t' ht'
            have this : POk m cl0 cw0 _ t' (s.pc t') := this
            cases hpc : s.pc t' <;> rw [hpc] at this <;> exact this
        · have hv : (upd s.pc t (.test u (s.cl u)) t').node? = some v := hv
          by_cases e : t' = t
          · subst e; rw [upd_same] at hv; cases hv; exact ⟨hu, upd_same .., ho.symm⟩
          · rw [upd_ne _ _ e] at hv; exact h'.node t' ht' v hv
        · exact mexcl_upd h.excl fun v hv t' ht' hne => by cases hv; exact hnode t' ht'
        · obtain ⟨a1, a2, a3, a4⟩ := h'.rep t' ht' k r' hr'
          refine ⟨a1, a2, a3, fun t'' ht'' hn => ?_⟩
          have hn : (upd s.pc t (.test u (s.cl u)) t'').node? = some r' := hn
          by_cases e : t'' = t
          · subst e; rw [upd_same] at hn; cases hn; exact hnr t' ht' k hr'
          · rw [upd_ne _ _ e] at hn; exact a4 t'' ht'' hn
        · refine (h.mok hm t' ht' k r' hr').imp_right fun hby => ?_
          show (upd s.pc t _ t').busy r'
          rw [upd_ne]
          · exact hby
          · rintro rfl; rw [hidle] at hby; exact hby
        · show s.cw x = clusterWeight m.g.n m.g.w s.cl x + ∑ i ∈ range T, mpend m.g.w x (upd s.pc t _ i)
          rw [mpend_upd m.g.w x s.pc ht, hidle, h.bal x hx]
          show _ = _ + (_ - 0 + 0)
          omega
      · rw [if_pos ho]; exact h'

theorem MInv.init {m : MCfg} (T : Nat) {cl0 : Nat → Nat} {cw0 : Nat → Int} (hst : MStart m cl0 cw0) :
    MInv m T cl0 cw0 (MState.init cl0 cw0) := by
  refine ⟨fun _ _ => trivial, fun _ _ _ h => (nomatch h), fun _ _ _ _ _ _ h => (nomatch h), fun _ _ => ⟨rfl, rfl⟩, fun _ _ => rfl,
    fun _ _ _ _ h => (nomatch h), fun _ _ _ _ _ _ _ h => (nomatch h), fun _ _ _ _ _ h => (nomatch h), fun x hx => ?_,
    fun x => le_max_left _ _, hst.inRange⟩
  show cw0 x = clusterWeight m.g.n m.g.w cl0 x + ∑ t ∈ range T, (0 : Int)
  rw [Finset.sum_const_zero, add_zero]
  exact hst.weights x hx

theorem MInv.reach {m : MCfg} (hw : ∀ u, u < m.g.n → 0 ≤ m.g.w u) {T : Nat} {cl0 : Nat → Nat}
    {cw0 : Nat → Int} (hst : MStart m cl0 cw0) {s s' : MState} (h : MInv m T cl0 cw0 s) (hr : MReach m T s s') :
    MInv m T cl0 cw0 s' := by
  induction hr with
  | refl => exact h
  | step _ hs ih =>
    cases hs with
    | begin t u ht hu hidle hnew => exact ih.begin hst ht hu hidle hnew
    | next t ht _ => exact ih.next hw ht

end Verif.LP
