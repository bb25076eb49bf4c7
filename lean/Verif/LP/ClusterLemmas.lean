import Verif.LP.Cluster
import Verif.LP.RefineLemmas

/-! Lemmas for C40: label propagation. -/

namespace Verif.LP
open Finset (range mem_range)

/-- Specification: the weight of the nodes in cluster `x`. -/
def clusterWeight (n : Nat) (w : Nat → Int) (cl : Nat → Nat) (x : Nat) : Int :=
  ∑ u ∈ range n, if cl u = x then w u else 0

theorem clusterWeight_upd {n : Nat} (w : Nat → Int) (cl : Nat → Nat) {u : Nat} (hu : u < n) (d x : Nat) :
    clusterWeight n w (upd cl u d) x =
      clusterWeight n w cl x + (if d = x then w u else 0) - (if cl u = x then w u else 0) := by
  unfold clusterWeight
  have := sum_upd (range n) (fun v y => if y = x then w v else 0) cl (mem_range.2 hu) d
  rw [this]
  omega

/-- What a thread has already done to the weight of cluster `x`. -/
def cpend (w : Nat → Int) (x : Nat) : CPC → Int
  | .sub u _ dst => if dst = x then w u else 0
  | .store u src dst => (if dst = x then w u else 0) - (if src = x then w u else 0)
  | _ => 0

/-- What a thread is about to add to cluster `x`. -/
def cadd (w : Nat → Int) (x : Nat) : CPC → Int
  | .add u _ dst => if dst = x then w u else 0
  | _ => 0

def CPC.valid (n : Nat) (cl : Nat → Nat) : CPC → Prop
  | .idle => True
  | .check u src dst | .add u src dst | .sub u src dst | .store u src dst =>
    u < n ∧ cl u = src ∧ src < n ∧ dst < n ∧ src ≠ dst
  | .look u src => u < n ∧ src < n

structure CoreInv (n T : Nat) (w : Nat → Int) (s : Core) : Prop where
  bal : ∀ x, x < n → s.cw x = clusterWeight n w s.cl x + ∑ t ∈ range T, cpend w x (s.pc t)
  valid : ∀ t, t < T → (s.pc t).valid n s.cl
  excl : ∀ t t', t < T → t' < T → t ≠ t' → ∀ u, (s.pc t).node? = some u → (s.pc t').node? ≠ some u
  inRange : ∀ u, u < n → s.cl u < n

theorem cpend_upd {T : Nat} (w : Nat → Int) (x : Nat) (pc : Nat → CPC) {t : Nat} (ht : t < T) (p : CPC) :
    ∑ i ∈ range T, cpend w x (upd pc t p i) = ∑ i ∈ range T, cpend w x (pc i) - cpend w x (pc t) + cpend w x p :=
  sum_upd (range T) (fun _ q => cpend w x q) pc (mem_range.2 ht) p

theorem cadd_upd {T : Nat} (w : Nat → Int) (x : Nat) (pc : Nat → CPC) {t : Nat} (ht : t < T) (p : CPC) :
    ∑ i ∈ range T, cadd w x (upd pc t p i) = ∑ i ∈ range T, cadd w x (pc i) - cadd w x (pc t) + cadd w x p :=
  sum_upd (range T) (fun _ q => cadd w x q) pc (mem_range.2 ht) p

theorem cexcl_upd {T : Nat} {pc : Nat → CPC} {t : Nat} {p : CPC}
    (h : ∀ t t', t < T → t' < T → t ≠ t' → ∀ u, (pc t).node? = some u → (pc t').node? ≠ some u)
    (hp : ∀ u, p.node? = some u → ∀ t', t' < T → t' ≠ t → (pc t').node? ≠ some u) :
    ∀ a b, a < T → b < T → a ≠ b → ∀ u, (upd pc t p a).node? = some u → (upd pc t p b).node? ≠ some u := by
  intro a b ha hb hab u hu
  by_cases ea : a = t
  · subst ea
    rw [upd_same] at hu
    rw [upd_ne _ _ (Ne.symm hab)]
    exact hp u hu b hb (Ne.symm hab)
  · rw [upd_ne _ _ ea] at hu
    by_cases eb : b = t
    · subst eb
      rw [upd_same]
      intro h'
      exact hp u h' a ha ea hu
    · rw [upd_ne _ _ eb]
      exact h a b ha hb hab u hu

theorem cexcl_same {T : Nat} {pc : Nat → CPC} {t : Nat} (ht : t < T) {p : CPC}
    (h : ∀ t t', t < T → t' < T → t ≠ t' → ∀ u, (pc t).node? = some u → (pc t').node? ≠ some u)
    (hp : p.node? = none ∨ p.node? = (pc t).node?) :
    ∀ a b, a < T → b < T → a ≠ b → ∀ u, (upd pc t p a).node? = some u → (upd pc t p b).node? ≠ some u := by
  refine cexcl_upd h fun u hu t' ht' hne => ?_
  rcases hp with hp | hp
  · rw [hp] at hu; cases hu
  · rw [hp] at hu; exact h t t' ht ht' (Ne.symm hne) u hu

theorem cvalid_upd {n T : Nat} {cl : Nat → Nat} {pc : Nat → CPC} {t : Nat} {p : CPC}
    (h : ∀ t, t < T → (pc t).valid n cl) (hp : p.valid n cl) : ∀ t', t' < T → (upd pc t p t').valid n cl := by
  intro t' ht'
  by_cases e : t' = t
  · subst e; rw [upd_same]; exact hp
  · rw [upd_ne _ _ e]; exact h t' ht'

theorem CPC.valid_cl {n : Nat} {cl : Nat → Nat} {pc : CPC} (h : pc.valid n cl) {u d : Nat}
    (hu : pc.node? ≠ some u) : pc.valid n (upd cl u d) := by
  cases pc <;> first
    | trivial
    | exact h
    | (rename_i v src dst
       have : v ≠ u := fun e => hu (by rw [e]; rfl)
       exact ⟨h.1, by rw [upd_ne _ _ this]; exact h.2.1, h.2.2⟩)

theorem CoreInv.bal_pc {n T : Nat} {w : Nat → Int} {s : Core} (h : CoreInv n T w s) {t : Nat} (ht : t < T) (x : Nat)
    (hx : x < n) (p : CPC) (hp : cpend w x p = cpend w x (s.pc t)) :
    s.cw x = clusterWeight n w s.cl x + ∑ i ∈ range T, cpend w x (upd s.pc t p i) := by
  rw [cpend_upd w x s.pc ht, hp, h.bal x hx]
  omega

theorem CoreInv.next {n T : Nat} {w : Nat → Int} {s : Core} (h : CoreInv n T w s) (maxW : Int) {t : Nat} (ht : t < T) :
    CoreInv n T w (s.next w maxW t) := by
  have hv := h.valid t ht
  unfold Core.next
  split <;> rename_i hpc
  · exact h
  · rw [hpc] at hv
    split
    · exact ⟨fun x hx => h.bal_pc ht x hx _ (by rw [hpc]; rfl),
        cvalid_upd h.valid hv, cexcl_same ht h.excl (Or.inr (by rw [hpc]; rfl)), h.inRange⟩
    · exact ⟨fun x hx => h.bal_pc ht x hx _ (by rw [hpc]; rfl),
        cvalid_upd h.valid trivial, cexcl_same ht h.excl (Or.inl rfl), h.inRange⟩
  · rename_i u src dst
    rw [hpc] at hv
    refine ⟨fun x hx => ?_, cvalid_upd h.valid hv, cexcl_same ht h.excl (Or.inr (by rw [hpc]; rfl)), h.inRange⟩
    show upd s.cw dst (s.cw dst + w u) x = clusterWeight n w s.cl x + ∑ i ∈ range T, cpend w x (upd s.pc t _ i)
    rw [cpend_upd w x s.pc ht, hpc]
    have := h.bal x hx
    simp only [cpend] at this ⊢
    by_cases e : x = dst
    · subst e; rw [upd_same, if_pos rfl]; omega
    · rw [upd_ne _ _ e, if_neg (Ne.symm e)]; omega
  · rename_i u src dst
    rw [hpc] at hv
    refine ⟨fun x hx => ?_, cvalid_upd h.valid hv, cexcl_same ht h.excl (Or.inr (by rw [hpc]; rfl)), h.inRange⟩
    show upd s.cw src (s.cw src - w u) x = clusterWeight n w s.cl x + ∑ i ∈ range T, cpend w x (upd s.pc t _ i)
    rw [cpend_upd w x s.pc ht, hpc]
    have := h.bal x hx
    simp only [cpend] at this ⊢
    by_cases e : x = src
    · subst e; rw [upd_same, if_pos rfl]; omega
    · rw [upd_ne _ _ e, if_neg (Ne.symm e)]; omega
  · rename_i u src dst
    rw [hpc] at hv
    obtain ⟨hu, hcl, hsrc, hdst, hne⟩ := hv
    refine ⟨fun x hx => ?_, ?_, cexcl_same ht h.excl (Or.inr (by rw [hpc]; rfl)), fun v hvn => ?_⟩
    · show s.cw x = clusterWeight n w (upd s.cl u dst) x + ∑ i ∈ range T, cpend w x (upd s.pc t _ i)
      rw [cpend_upd w x s.pc ht, hpc, clusterWeight_upd w s.cl hu, hcl]
      have := h.bal x hx
      simp only [cpend] at this ⊢
      omega
    · intro t' ht'
      show (upd s.pc t _ t').valid n (upd s.cl u dst)
      by_cases e : t' = t
      · subst e; rw [upd_same]; exact ⟨hu, hsrc⟩
      · rw [upd_ne _ _ e]
        exact CPC.valid_cl (h.valid t' ht') (h.excl t t' ht ht' (Ne.symm e) u (by rw [hpc]; rfl))
    · show upd s.cl u dst v < n
      by_cases e : v = u
      · subst e; rw [upd_same]; exact hdst
      · rw [upd_ne _ _ e]; exact h.inRange v hvn
  · split <;>
    exact ⟨fun x hx => h.bal_pc ht x hx _ (by rw [hpc]; rfl),
        cvalid_upd h.valid trivial, cexcl_same ht h.excl (Or.inl rfl), h.inRange⟩

theorem CoreInv.call {n T : Nat} {w : Nat → Int} {s : Core} (h : CoreInv n T w s) {t u src dst : Nat} (ht : t < T)
    (hidle : s.pc t = .idle) (hv : (CPC.check u src dst).valid n s.cl)
    (hfree : ∀ t', t' < T → (s.pc t').node? ≠ some u) :
    CoreInv n T w { s with pc := upd s.pc t (.check u src dst) } :=
  ⟨fun x hx => h.bal_pc ht x hx _ (by rw [hidle]; rfl),
    cvalid_upd h.valid hv,
    cexcl_upd h.excl fun v hv' t' ht' _ => by cases hv'; exact hfree t' ht', h.inRange⟩

/-! ## The weight limit -/

/-- The weight of a cluster together with everything that is about to be added. -/
def room (T : Nat) (w : Nat → Int) (s : Core) (x : Nat) : Int := s.cw x + ∑ t ∈ range T, cadd w x (s.pc t)

theorem cadd_le {w : Nat → Int} {wm : Int} (hm : 0 ≤ wm) {n : Nat} (hw : ∀ u, u < n → w u ≤ wm) {cl : Nat → Nat} {pc : CPC}
    (hv : pc.valid n cl) (x : Nat) : cadd w x pc ≤ wm := by
  cases pc <;> first
    | exact hm
    | (rename_i u src dst
       show (if dst = x then w u else 0) ≤ wm
       split
       · exact hw u hv.1
       · exact hm)

theorem cadd_nonneg {w : Nat → Int} {n : Nat} (hw : ∀ u, u < n → 0 ≤ w u) {cl : Nat → Nat} {pc : CPC}
    (hv : pc.valid n cl) (x : Nat) : 0 ≤ cadd w x pc := by
  cases pc <;> first
    | exact le_refl _
    | (rename_i u src dst
       show 0 ≤ (if dst = x then w u else 0)
       split
       · exact hw u hv.1
       · exact le_refl _)

theorem room_next {n T : Nat} {w : Nat → Int} {wm : Int} (hw0 : ∀ u, u < n → 0 ≤ w u) (hw : ∀ u, u < n → w u ≤ wm)
    {s : Core} (h : CoreInv n T w s) (maxW : Int) {t : Nat} (ht : t < T) (x : Nat) :
    room T w (s.next w maxW t) x ≤ max (room T w s x) (maxW + (T - 1 : Nat) * wm) := by
  have hv := h.valid t ht
  unfold Core.next
  split <;> rename_i hpc
  · exact le_max_left _ _
  · rename_i u src dst
    rw [hpc] at hv
    split
    · rename_i hfit
      unfold room
      show s.cw x + ∑ i ∈ range T, cadd w x (upd s.pc t _ i) ≤ _
      rw [cadd_upd w x s.pc ht, hpc]
      simp only [cadd]
      by_cases e : dst = x
      · subst e
        rw [if_pos rfl]
        have hm : 0 ≤ wm := le_trans (hw0 u hv.1) (hw u hv.1)
        have hrest : ∑ i ∈ range T, cadd w dst (s.pc i) ≤ (T - 1 : Nat) * wm := by
          rw [← Finset.add_sum_erase (range T) _ (mem_range.2 ht), hpc]
          simp only [cadd]
          have := Finset.sum_le_card_nsmul ((range T).erase t) (fun i => cadd w dst (s.pc i)) wm fun i hi =>
            cadd_le hm hw (h.valid i (mem_range.1 (Finset.mem_erase.1 hi).2)) dst
          rw [Finset.card_erase_of_mem (mem_range.2 ht), Finset.card_range, nsmul_eq_mul] at this
          rw [zero_add]
          exact this
        refine le_max_of_le_right ?_
        generalize ((T - 1 : Nat) : Int) * wm = y at hrest ⊢
        simp only [cadd] at hrest
        omega
      · rw [if_neg e]
        refine le_max_of_le_left ?_
        omega
    · refine le_max_of_le_left ?_
      unfold room
      show s.cw x + ∑ i ∈ range T, cadd w x (upd s.pc t _ i) ≤ _
      rw [cadd_upd w x s.pc ht, hpc]
      simp only [cadd]; omega
  · rename_i u src dst
    refine le_max_of_le_left ?_
    unfold room
    show upd s.cw dst (s.cw dst + w u) x + ∑ i ∈ range T, cadd w x (upd s.pc t _ i) ≤ _
    rw [cadd_upd w x s.pc ht, hpc]
    simp only [cadd]
    by_cases e : x = dst
    · subst e; rw [upd_same, if_pos rfl]; omega
    · rw [upd_ne _ _ e, if_neg (Ne.symm e)]; omega
  · rename_i u src dst
    rw [hpc] at hv
    refine le_max_of_le_left ?_
    unfold room
    show upd s.cw src (s.cw src - w u) x + ∑ i ∈ range T, cadd w x (upd s.pc t _ i) ≤ _
    rw [cadd_upd w x s.pc ht, hpc]
    simp only [cadd]
    have := hw0 u hv.1
    by_cases e : x = src
    · subst e; rw [upd_same]; omega
    · rw [upd_ne _ _ e]; omega
  · refine le_max_of_le_left ?_
    unfold room
    show s.cw x + ∑ i ∈ range T, cadd w x (upd s.pc t _ i) ≤ _
    rw [cadd_upd w x s.pc ht, hpc]
    simp only [cadd]; omega
  · split <;>
    · refine le_max_of_le_left ?_
      unfold room
      show s.cw x + ∑ i ∈ range T, cadd w x (upd s.pc t _ i) ≤ _
      rw [cadd_upd w x s.pc ht, hpc]
      simp only [cadd]; omega

/-! ## Searches -/

/-- The node has no neighbours and is nobody's neighbour. -/
def Isolated (g : Graph) (x : Nat) : Prop := g.adj x = [] ∧ ∀ v, v < g.n → ∀ e ∈ g.adj v, e.1 ≠ x

/-- A thread does not move node `x` and moves no node to cluster `x`. -/
def CPC.away (x : Nat) : CPC → Prop
  | .check u _ dst | .add u _ dst | .sub u _ dst | .store u _ dst => u ≠ x ∧ dst ≠ x
  | _ => True

structure CInv (c : CCfg) (T : Nat) (s : CState) : Prop where
  core : CoreInv c.g.n T c.g.w s.core
  look : ∀ t, t < T → ∀ q, s.look t = some q → s.core.pc t = .idle ∧ q.u < c.g.n ∧ s.core.cl q.u = q.own ∧
    (∀ e ∈ q.todo, e ∈ c.g.adj q.u) ∧
    (∀ e ∈ q.m, e.1 < c.g.n ∧ (∀ x, x < c.g.n → Isolated c.g x → e.1 ≠ x) ∧ c.g.adj q.u ≠ [])
  free : ∀ t, t < T → ∀ q, s.look t = some q → ∀ t', t' < T →
    (s.core.pc t').node? ≠ some q.u ∧ (t' ≠ t → ∀ q', s.look t' = some q' → q'.u ≠ q.u)
  /-- isolated nodes stay alone -/
  alone : ∀ x, x < c.g.n → Isolated c.g x → ∀ v, v < c.g.n → (s.core.cl v = x ↔ v = x)
  away : ∀ t, t < T → ∀ x, x < c.g.n → Isolated c.g x → (s.core.pc t).away x

theorem clookDrop {c : CCfg} {T : Nat} {s : CState} (h : CInv c T s) (t : Nat) :
    CInv c T { s with look := upd s.look t none } := by
  have hu : ∀ t' q', upd s.look t none t' = some q' → s.look t' = some q' := by
    intro t' q' hq'
    by_cases e : t' = t
    · subst e; rw [upd_same] at hq'; cases hq'
    · rw [upd_ne _ _ e] at hq'; exact hq'
  exact ⟨h.core, fun t' ht' q hq => h.look t' ht' q (hu t' q hq),
    fun t' ht' q hq t'' ht'' => ⟨(h.free t' ht' q (hu t' q hq) t'' ht'').1,
      fun hne q' hq' => (h.free t' ht' q (hu t' q hq) t'' ht'').2 hne q' (hu t'' q' hq')⟩, h.alone, h.away⟩

/-- The effects of one atomic step. -/
theorem core_next_cases {w : Nat → Int} {maxW : Int} {s : Core} {t : Nat} :
    (∃ p, (s.next w maxW t).pc = upd s.pc t p ∧ (p = .idle ∨ p.node? = (s.pc t).node?) ∧
      ∀ x, (s.pc t).away x → p.away x) ∧
    ((s.next w maxW t).cl = s.cl ∨ ∃ u src dst, s.pc t = .store u src dst ∧ (s.next w maxW t).cl = upd s.cl u dst) := by
  unfold Core.next
  split <;> rename_i hpc
  · exact ⟨⟨s.pc t, by rw [hpc]; funext i; by_cases e : i = t; (subst e; rw [upd_same, hpc]); rw [upd_ne _ _ e],
      Or.inl hpc, fun _ h => h⟩, Or.inl rfl⟩
  · rw [hpc]; split
    · exact ⟨⟨_, rfl, Or.inr rfl, fun _ h => h⟩, Or.inl rfl⟩
    · exact ⟨⟨_, rfl, Or.inl rfl, fun _ _ => trivial⟩, Or.inl rfl⟩
  · rw [hpc]; exact ⟨⟨_, rfl, Or.inr rfl, fun _ h => h⟩, Or.inl rfl⟩
  · rw [hpc]; exact ⟨⟨_, rfl, Or.inr rfl, fun _ h => h⟩, Or.inl rfl⟩
  · rw [hpc]; exact ⟨⟨_, rfl, Or.inr rfl, fun _ _ => trivial⟩, Or.inr ⟨_, _, _, rfl, rfl⟩⟩
  · rw [hpc]; split
    · exact ⟨⟨_, rfl, Or.inl rfl, fun _ _ => trivial⟩, Or.inl rfl⟩
    · exact ⟨⟨_, rfl, Or.inl rfl, fun _ _ => trivial⟩, Or.inl rfl⟩

theorem cinv_step {c : CCfg} (hg : c.g.WF) {T : Nat} {s s' : CState} (h : CInv c T s) (hs : CStep c T s s') :
    CInv c T s' := by
  cases hs with
  | start t u ht hu hl hidle hfree =>
    refine ⟨h.core, fun t' ht' q hq => ?_, fun t' ht' q hq t'' ht'' => ?_, h.alone, h.away⟩
    · by_cases e : t' = t
      · subst e
        rw [show ({ s with look := upd s.look t' _ } : CState).look t' = _ from upd_same ..] at hq
        cases hq
        exact ⟨hidle, hu, rfl, fun e he => List.mem_of_mem_take he, fun e he => nomatch he⟩
      · rw [show ({ s with look := upd s.look t _ } : CState).look t' = s.look t' from upd_ne _ _ e] at hq
        exact h.look t' ht' q hq
    · by_cases e : t' = t
      · subst e
        rw [show ({ s with look := upd s.look t' _ } : CState).look t' = _ from upd_same ..] at hq
        cases hq
        refine ⟨(hfree t'' ht'').1, fun hne q' hq' => ?_⟩
        rw [show ({ s with look := upd s.look t' _ } : CState).look t'' = s.look t'' from upd_ne _ _ hne] at hq'
        exact (hfree t'' ht'').2 q' hq'
      · rw [show ({ s with look := upd s.look t _ } : CState).look t' = s.look t' from upd_ne _ _ e] at hq
        refine ⟨(h.free t' ht' q hq t'' ht'').1, fun hne q' hq' => ?_⟩
        by_cases e' : t'' = t
        · subst e'
          rw [show ({ s with look := upd s.look t'' _ } : CState).look t'' = _ from upd_same ..] at hq'
          cases hq'
          exact Ne.symm ((hfree t' ht').2 q hq)
        · rw [show ({ s with look := upd s.look t _ } : CState).look t'' = s.look t'' from upd_ne _ _ e'] at hq'
          exact (h.free t' ht' q hq t'' ht'').2 hne q' hq'
  | see t q l1 l2 e ht hl htodo =>
    have hq := h.look t ht q hl
    refine ⟨h.core, fun t' ht' q1 hq1 => ?_, fun t' ht' q1 hq1 t'' ht'' => ?_, h.alone, h.away⟩
    · by_cases e1 : t' = t
      · subst e1
        rw [show ({ s with look := upd s.look t' _ } : CState).look t' = _ from upd_same ..] at hq1
        cases hq1
        obtain ⟨a1, a2, a3, a5, a6⟩ := hq
        have hmem : e ∈ c.g.adj q.u := a5 e (by rw [htodo]; simp)
        have hen := hg q.u a2 e hmem
        refine ⟨a1, a2, a3, fun e' he' => a5 e' (by rw [htodo]; simp at he' ⊢; grind), fun e' he' => ?_⟩
        have he' : e' ∈ addTo q.m (s.core.cl e.1) e.2 := he'
        rcases (addTo_keys q.m (s.core.cl e.1) e.2 e'.1).1 (List.mem_map.2 ⟨_, he', rfl⟩) with he' | he'
        · rw [he']
          refine ⟨h.core.inRange _ hen, fun x hx hiso heq => ?_, fun hnil => ?_⟩
          · exact hiso.2 q.u a2 e hmem ((h.alone x hx hiso e.1 hen).1 heq)
          · rw [show ({ q with todo := l1 ++ l2, m := addTo q.m (s.core.cl e.1) e.2 } : Search).u = q.u from rfl] at hnil
            rw [hnil] at hmem; cases hmem
        · obtain ⟨e'', he'', heq⟩ := List.mem_map.1 he'
          rw [← heq]
          exact a6 e'' he''
      · rw [show ({ s with look := upd s.look t _ } : CState).look t' = s.look t' from upd_ne _ _ e1] at hq1
        exact h.look t' ht' q1 hq1
    · have hu : ∀ (m : List (Nat × Int)) (t' : Nat) (q' : Search),
          upd s.look t (some ⟨q.u, q.own, l1 ++ l2, m⟩) t' = some q' →
          ∃ q'', s.look t' = some q'' ∧ q''.u = q'.u := by
        intro m t' q' hq'
        by_cases e1 : t' = t
        · subst e1
          rw [upd_same] at hq'
          cases hq'
          exact ⟨q, hl, rfl⟩
        · rw [upd_ne _ _ e1] at hq'
          exact ⟨q', hq', rfl⟩
      obtain ⟨q2, hq2, he2⟩ := hu _ t' q1 hq1
      have hf := h.free t' ht' q2 hq2 t'' ht''
      rw [he2] at hf
      refine ⟨hf.1, fun hne q' hq' => ?_⟩
      obtain ⟨q3, hq3, he3⟩ := hu _ t'' q' hq'
      rw [← he3]
      exact hf.2 hne q3 hq3
  | giveUp t q ht hl => exact clookDrop h t
  | keep t q ownW fav r ht hl htodo hr heq => exact clookDrop h t
  | move t q ownW fav r ht hl htodo hr hne =>
    obtain ⟨a1, a2, a3, a5, a6⟩ := h.look t ht q hl
    have hbest : (r.best, r.gain) ∈ q.m := by
      rcases hr.spec.1 with ⟨e, _⟩ | ⟨e, _⟩
      · exact absurd (by rw [a3, e]) hne
      · exact e
    obtain ⟨b1, b2, b3⟩ := a6 _ hbest
    have h' := clookDrop h t
    have hnt : ∀ t' q', (s.call t q.u q.own r.best).look t' = some q' → t' ≠ t := by
      rintro t' q' hq' rfl
      rw [show (s.call t' q.u q.own r.best).look t' = none from upd_same ..] at hq'
      cases hq'
    refine ⟨?_, fun t' ht' q' hq' => ?_, fun t' ht' q' hq' t'' ht'' => ?_, h.alone, fun t' ht' x hx hiso => ?_⟩
    · exact h.core.call ht a1 ⟨a2, a3, by rw [← a3]; exact h.core.inRange _ a2, b1, by rw [← a3]; exact hne⟩
        fun t' ht' => (h.free t ht q hl t' ht').1
    · have := h'.look t' ht' q' hq'
      refine ⟨?_, this.2⟩
      show upd s.core.pc t _ t' = .idle
      rw [upd_ne _ _ (hnt t' q' hq')]
      exact this.1
    · refine ⟨?_, (h'.free t' ht' q' hq' t'' ht'').2⟩
      show (upd s.core.pc t _ t'').node? ≠ some q'.u
      by_cases e : t'' = t
      · subst e
        rw [upd_same]
        have hne' := hnt t' q' hq'
        rw [show (s.call t'' q.u q.own r.best).look t' = s.look t' from upd_ne _ _ hne'] at hq'
        have := (h.free t'' ht'' q hl t' ht').2 hne' q' hq'
        intro he
        exact this (Option.some.inj he).symm
      · rw [upd_ne _ _ e]
        exact (h'.free t' ht' q' hq' t'' ht'').1
    · show (upd s.core.pc t _ t').away x
      by_cases e : t' = t
      · subst e
        rw [upd_same]
        refine ⟨fun he => b3 ?_, b2 x hx hiso⟩
        rw [he]; exact hiso.1
      · rw [upd_ne _ _ e]; exact h.away t' ht' x hx hiso
  | core t ht hbusy =>
    obtain ⟨⟨p, hp, hp1, hp2⟩, hcl⟩ := core_next_cases (w := c.g.w) (maxW := c.maxW) (s := s.core) (t := t)
    have hnl : ∀ q, s.look t ≠ some q := fun q hq => hbusy (h.look t ht q hq).1
    refine ⟨h.core.next c.maxW ht, fun t' ht' q hq => ?_, fun t' ht' q hq t'' ht'' => ?_, fun x hx hiso v hv => ?_,
      fun t' ht' x hx hiso => ?_⟩
    · obtain ⟨a1, a2, a3, a5, a6⟩ := h.look t' ht' q hq
      have hne : t' ≠ t := by rintro rfl; exact hnl q hq
      refine ⟨?_, a2, ?_, a5, a6⟩
      · show (s.core.next c.g.w c.maxW t).pc t' = .idle
        rw [hp, upd_ne _ _ hne]; exact a1
      · show (s.core.next c.g.w c.maxW t).cl q.u = _
        rcases hcl with hcl | ⟨u, src, dst, hpc, hcl⟩
        · rw [hcl]; exact a3
        · rw [hcl, upd_ne]
          · exact a3
          · intro e
            exact (h.free t' ht' q hq t ht).1 (by rw [hpc, e]; rfl)
    · refine ⟨?_, (h.free t' ht' q hq t'' ht'').2⟩
      show ((s.core.next c.g.w c.maxW t).pc t'').node? ≠ some q.u
      rw [hp]
      by_cases e : t'' = t
      · subst e
        rw [upd_same]
        rcases hp1 with rfl | hp1
        · intro e; cases e
        · rw [hp1]; exact (h.free t' ht' q hq t'' ht'').1
      · rw [upd_ne _ _ e]; exact (h.free t' ht' q hq t'' ht'').1
    · show (s.core.next c.g.w c.maxW t).cl v = x ↔ v = x
      rcases hcl with hcl | ⟨u, src, dst, hpc, hcl⟩
      · rw [hcl]; exact h.alone x hx hiso v hv
      · rw [hcl]
        have haw := h.away t ht x hx hiso
        rw [hpc] at haw
        by_cases e : v = u
        · subst e
          rw [upd_same]
          exact ⟨fun h => absurd h haw.2, fun h => absurd h haw.1⟩
        · rw [upd_ne _ _ e]; exact h.alone x hx hiso v hv
    · show ((s.core.next c.g.w c.maxW t).pc t').away x
      rw [hp]
      by_cases e : t' = t
      · subst e; rw [upd_same]; exact hp2 x (h.away t' ht' x hx hiso)
      · rw [upd_ne _ _ e]; exact h.away t' ht' x hx hiso

theorem cinv_init (c : CCfg) (T : Nat) : CInv c T (CState.init c) := by
  refine ⟨⟨fun x hx => ?_, fun _ _ => trivial, fun _ _ _ _ _ _ h => (nomatch h), fun u hu => hu⟩, fun _ _ _ h => (nomatch h),
    fun _ _ _ h => (nomatch h), fun x hx hiso v hv => Iff.rfl, fun _ _ _ _ _ => trivial⟩
  show c.g.w x = clusterWeight c.g.n c.g.w id x + ∑ t ∈ range T, (0 : Int)
  rw [Finset.sum_const_zero, add_zero]
  show c.g.w x = ∑ u ∈ range c.g.n, if u = x then c.g.w u else 0
  rw [Finset.sum_ite_eq' (range c.g.n) x, if_pos (mem_range.2 hx)]

theorem cinv_reach {c : CCfg} (hg : c.g.WF) {T : Nat} {s s' : CState} (h : CInv c T s) (hr : CReach c T s s') :
    CInv c T s' := by
  induction hr with
  | refl => exact h
  | step _ hs ih => exact cinv_step hg ih hs

/-! ## Weights are never negative -/

def CPC.leaves (x : Nat) : CPC → Bool
  | .store _ src _ => src == x
  | _ => false

def CPC.nodeD : CPC → Nat
  | .idle => 0
  | .check u .. | .add u .. | .sub u .. | .store u .. | .look u .. => u

theorem nodeD_spec {p : CPC} (h : p ≠ .idle) : p.node? = some p.nodeD := by cases p <;> first | exact absurd rfl h | rfl

theorem cpend_ge {n : Nat} {w : Nat → Int} (hw : ∀ u, u < n → 0 ≤ w u) {cl : Nat → Nat} {p : CPC} (hv : p.valid n cl)
    (x : Nat) : -(if p.leaves x then w p.nodeD else 0) ≤ cpend w x p := by
  cases p with
  | sub u src dst =>
    have := hw u hv.1
    show -(if false = true then _ else 0) ≤ if dst = x then w u else 0
    simp only [Bool.false_eq_true, if_false, neg_zero]
    split <;> omega
  | store u src dst =>
    have := hw u hv.1
    show -(if (src == x) = true then w u else 0) ≤ (if dst = x then w u else 0) - (if src = x then w u else 0)
    simp only [beq_iff_eq]
    split <;> split <;> omega
  | _ => exact le_refl _

theorem cw_nonneg {n T : Nat} {w : Nat → Int} (hw : ∀ u, u < n → 0 ≤ w u) {s : Core} (h : CoreInv n T w s) {x : Nat}
    (hx : x < n) : 0 ≤ s.cw x := by
  rw [h.bal x hx]
  have h1 : -(∑ t ∈ range T, if (s.pc t).leaves x then w (s.pc t).nodeD else 0) ≤ ∑ t ∈ range T, cpend w x (s.pc t) := by
    rw [← Finset.sum_neg_distrib]
    exact Finset.sum_le_sum fun t ht => cpend_ge hw (h.valid t (mem_range.1 ht)) x
  have h2 : (∑ t ∈ range T, if (s.pc t).leaves x then w (s.pc t).nodeD else 0) ≤ clusterWeight n w s.cl x := by
    unfold clusterWeight
    rw [← Finset.sum_filter, ← Finset.sum_filter]
    have hl : ∀ t, (s.pc t).leaves x = true → ∃ u dst, s.pc t = .store u x dst := by
      intro t ht
      cases hpc : s.pc t <;> rw [hpc] at ht <;> simp only [CPC.leaves] at ht <;> first | cases ht | skip
      rename_i u src dst
      exact ⟨u, dst, by rw [show src = x by simpa using ht]⟩
    rw [← Finset.sum_image (g := fun t => (s.pc t).nodeD) (f := w)]
    · refine Finset.sum_le_sum_of_subset_of_nonneg ?_ fun u hu _ => hw u (mem_range.1 (Finset.mem_filter.1 hu).1)
      intro u hu
      obtain ⟨t, ht, rfl⟩ := Finset.mem_image.1 hu
      obtain ⟨ht, hlv⟩ := Finset.mem_filter.1 ht
      obtain ⟨u, dst, hpc⟩ := hl t hlv
      have hv := h.valid t (mem_range.1 ht)
      rw [hpc] at hv ⊢
      exact Finset.mem_filter.2 ⟨mem_range.2 hv.1, hv.2.1⟩
    · intro t ht t' ht' heq
      obtain ⟨ht, hlv⟩ := Finset.mem_filter.1 ht
      obtain ⟨ht', hlv'⟩ := Finset.mem_filter.1 ht'
      obtain ⟨u, dst, hpc⟩ := hl t hlv
      obtain ⟨u', dst', hpc'⟩ := hl t' hlv'
      by_contra hne
      simp only [hpc, hpc', CPC.nodeD] at heq
      exact h.excl t t' (mem_range.1 ht) (mem_range.1 ht') hne u (by rw [hpc]; rfl) (by rw [hpc', heq]; rfl)
  omega

/-! ## The number of clusters -/

/-- The thread will look whether cluster `x` is empty. -/
def CPC.willLook (x : Nat) : CPC → Prop
  | .store _ src _ | .look _ src => src = x
  | _ => False

/-- Every empty cluster was counted or will be. -/
def Counted (n T : Nat) (s : Core) : Prop :=
  ∀ x, x < n → s.cw x = 0 → 0 < s.emptied x ∨ ∃ t, t < T ∧ (s.pc t).willLook x

theorem counted_next {n T : Nat} {w : Nat → Int} (hw : ∀ u, u < n → 0 < w u) {s : Core} (h : CoreInv n T w s)
    (hc : Counted n T s) (maxW : Int) {t : Nat} (ht : t < T) : Counted n T (s.next w maxW t) := by
  have hv := h.valid t ht
  have keep : ∀ (p : CPC), (∀ x, (s.pc t).willLook x → p.willLook x) → ∀ x,
      (0 < s.emptied x ∨ ∃ t', t' < T ∧ (s.pc t').willLook x) →
      0 < s.emptied x ∨ ∃ t', t' < T ∧ (upd s.pc t p t').willLook x := by
    intro p hp x hx
    refine hx.imp_right ?_
    rintro ⟨t', ht', hl⟩
    refine ⟨t', ht', ?_⟩
    by_cases e : t' = t
    · subst e; rw [upd_same]; exact hp x hl
    · rw [upd_ne _ _ e]; exact hl
  unfold Core.next
  split <;> rename_i hpc
  · exact hc
  · split
    · exact fun x hx h0 => keep _ (fun y hy => by rw [hpc] at hy; exact hy) x (hc x hx h0)
    · exact fun x hx h0 => keep _ (fun y hy => by rw [hpc] at hy; exact hy.elim) x (hc x hx h0)
  · rename_i u src dst
    rw [hpc] at hv
    intro x hx h0
    have h0 : upd s.cw dst (s.cw dst + w u) x = 0 := h0
    by_cases e : x = dst
    · subst e
      rw [upd_same] at h0
      have := cw_nonneg (fun u hu => le_of_lt (hw u hu)) h hx
      have := hw u hv.1
      omega
    · rw [upd_ne _ _ e] at h0
      exact keep _ (fun y hy => by rw [hpc] at hy; exact hy) x (hc x hx h0)
  · rename_i u src dst
    intro x hx h0
    have h0 : upd s.cw src (s.cw src - w u) x = 0 := h0
    by_cases e : x = src
    · subst e
      exact Or.inr ⟨t, ht, by show (upd s.pc t _ t).willLook x; rw [upd_same]; rfl⟩
    · rw [upd_ne _ _ e] at h0
      exact keep _ (fun y hy => by rw [hpc] at hy; exact hy.elim) x (hc x hx h0)
  · exact fun x hx h0 => keep _ (fun y hy => by rw [hpc] at hy; exact hy) x (hc x hx h0)
  · rename_i u src
    split
    · intro x hx h0
      show 0 < upd s.emptied src (s.emptied src + 1) x ∨ _
      by_cases e : x = src
      · subst e; rw [upd_same]; exact Or.inl (Nat.succ_pos _)
      · rw [upd_ne _ _ e]
        rcases hc x hx h0 with h1 | ⟨t', ht', hl⟩
        · exact Or.inl h1
        · refine Or.inr ⟨t', ht', ?_⟩
          show (upd s.pc t _ t').willLook x
          rw [upd_ne]
          · exact hl
          · rintro rfl
            rw [hpc] at hl
            exact e hl.symm
    · rename_i hz
      intro x hx h0
      refine (hc x hx h0).imp_right ?_
      rintro ⟨t', ht', hl⟩
      refine ⟨t', ht', ?_⟩
      show (upd s.pc t _ t').willLook x
      rw [upd_ne]
      · exact hl
      · rintro rfl
        rw [hpc] at hl
        exact hz (by rw [show src = x from hl]; exact h0)

end Verif.LP
