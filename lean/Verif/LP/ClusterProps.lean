import Verif.LP.MergeLemmas

/-!
# C40: label propagation clustering
-/

namespace Verif.LP
open Finset (range mem_range)

/-- One of the two passes after label propagation, or nothing if it is not executed (LC 112-166): `matching` and the
favored clusters are arbitrary. -/
def Pass (c : CCfg) (T : Nat) (isolated : Bool) (cl : Nat → Nat) (cw : Nat → Int) (cl' : Nat → Nat) (cw' : Nat → Int) : Prop :=
  (cl' = cl ∧ cw' = cw) ∨
    ∃ matching key s, MPass ⟨c.g, c.maxW, isolated, matching, key⟩ T cl cw s ∧ cl' = s.cl ∧ cw' = s.cw

/-- A run of `compute_clustering` (LC 88-108) with `T` threads: iterations of label propagation, the isolated nodes,
two-hop clustering.  `cl` is the clustering and `cw` the stored weights. -/
def Clustered (c : CCfg) (T : Nat) (cl : Nat → Nat) (cw : Nat → Int) : Prop :=
  ∃ s cl1 cw1, CReach c T (CState.init c) s ∧ (∀ t, t < T → s.core.pc t = .idle) ∧
    Pass c T true s.core.cl s.core.cw cl1 cw1 ∧ Pass c T false cl1 cw1 cl cw

/-! ## Weights -/

theorem isolated_of_symm {g : Graph} (hs : g.Symm) {x : Nat} (hx : x < g.n) (h : g.adj x = []) : Isolated g x := by
  refine ⟨h, fun v hv e he hex => ?_⟩
  have := hs v x e.2 hv hx
  rw [h, List.count_nil] at this
  have hpos : 0 < List.count (x, e.2) (g.adj v) := List.count_pos_iff.2 (by rw [← hex]; exact he)
  omega

theorem idle_bal {n T : Nat} {w : Nat → Int} {s : Core} (h : CoreInv n T w s) (hidle : ∀ t, t < T → s.pc t = .idle) :
    ∀ x, x < n → s.cw x = clusterWeight n w s.cl x := by
  intro x hx
  rw [h.bal x hx, Finset.sum_eq_zero, add_zero]
  intro t ht
  rw [hidle t (mem_range.1 ht)]
  rfl

theorem lp_start {c : CCfg} (hg : c.g.WF) (hs : c.g.Symm) {T : Nat} {s : CState} (hr : CReach c T (CState.init c) s)
    (hidle : ∀ t, t < T → s.core.pc t = .idle) (matching : Bool) (key : Nat → Nat) :
    MStart ⟨c.g, c.maxW, true, matching, key⟩ s.core.cl s.core.cw := by
  have h := cinv_reach hg (cinv_init c T) hr
  have hb := idle_bal h.core hidle
  refine ⟨hb, h.core.inRange, fun _ u hu hd => ?_⟩
  have ha := h.alone u hu (isolated_of_symm hs hu hd)
  refine ⟨(ha u hu).2 rfl, ?_⟩
  show s.core.cw u = c.g.w u
  rw [hb u hu]
  unfold clusterWeight
  rw [Finset.sum_eq_single u]
  · rw [if_pos ((ha u hu).2 rfl)]
  · intro v hv hne
    rw [if_neg fun h => hne ((ha v (mem_range.1 hv)).1 h)]
  · intro hn; exact absurd (mem_range.2 hu) hn

theorem pass_spec {m : MCfg} (hw : ∀ u, u < m.g.n → 0 ≤ m.g.w u) {T : Nat} {cl : Nat → Nat} {cw : Nat → Int}
    (hst : MStart m cl cw) {s : MState} (hp : MPass m T cl cw s) :
    (∀ x, x < m.g.n → s.cw x = clusterWeight m.g.n m.g.w s.cl x) ∧ (∀ u, u < m.g.n → s.cl u < m.g.n) ∧
      ∀ x, s.cw x ≤ max (cw x) m.maxW := by
  have h := (MInv.init T hst).reach hw hst hp.1
  refine ⟨fun x hx => ?_, h.inRange, h.limit⟩
  rw [h.bal x hx, Finset.sum_eq_zero, add_zero]
  intro t ht
  rw [hp.2.1 t (mem_range.1 ht)]
  rfl

theorem clustered_spec {c : CCfg} (hg : c.g.WF) (hs : c.g.Symm) (hw : ∀ u, u < c.g.n → 0 ≤ c.g.w u) {T : Nat} {s : CState}
    (hr : CReach c T (CState.init c) s) (hidle : ∀ t, t < T → s.core.pc t = .idle)
    {cl1 cl2 : Nat → Nat} {cw1 cw2 : Nat → Int} (h1 : Pass c T true s.core.cl s.core.cw cl1 cw1)
    (h2 : Pass c T false cl1 cw1 cl2 cw2) :
    (∀ x, x < c.g.n → cw2 x = clusterWeight c.g.n c.g.w cl2 x) ∧ (∀ u, u < c.g.n → cl2 u < c.g.n) ∧
      ∀ x, cw2 x ≤ max (s.core.cw x) c.maxW := by
  have a1 : (∀ x, x < c.g.n → cw1 x = clusterWeight c.g.n c.g.w cl1 x) ∧ (∀ u, u < c.g.n → cl1 u < c.g.n) ∧
      ∀ x, cw1 x ≤ max (s.core.cw x) c.maxW := by
    rcases h1 with ⟨rfl, rfl⟩ | ⟨ma, key, m, hm, rfl, rfl⟩
    · have hst := lp_start hg hs hr hidle true id
      exact ⟨hst.weights, hst.inRange, fun x => le_max_left _ _⟩
    · exact pass_spec (m := ⟨c.g, c.maxW, true, ma, key⟩) hw (lp_start hg hs hr hidle ma key) hm
  rcases h2 with ⟨rfl, rfl⟩ | ⟨ma, key, m, hm, rfl, rfl⟩
  · exact a1
  · obtain ⟨b1, b2, b3⟩ := pass_spec (m := ⟨c.g, c.maxW, false, ma, key⟩) hw ⟨a1.1, a1.2.1, fun h => (nomatch h)⟩ hm
    refine ⟨b1, b2, fun x => ?_⟩
    have := b3 x
    have := a1.2.2 x
    simp only at *
    omega

/-- **C40, weights.**  For every symmetric graph with non-negative node weights, every number of threads and every
interleaving, with or without the passes for isolated nodes and two-hop clustering, for every choice of favored
clusters: the stored weight of each cluster is the weight of its nodes, and every node is in an existing cluster. -/
theorem C40_weights (c : CCfg) (hg : c.g.WF) (hs : c.g.Symm) (hw : ∀ u, u < c.g.n → 0 ≤ c.g.w u) (T : Nat)
    (cl : Nat → Nat) (cw : Nat → Int) (h : Clustered c T cl cw) :
    (∀ x, x < c.g.n → cw x = clusterWeight c.g.n c.g.w cl x) ∧ ∀ u, u < c.g.n → cl u < c.g.n := by
  obtain ⟨s, cl1, cw1, hr, hidle, h1, h2⟩ := h
  obtain ⟨a, b, _⟩ := clustered_spec hg hs hw hr hidle h1 h2
  exact ⟨a, b⟩

theorem lp_room {c : CCfg} (hg : c.g.WF) (hw : ∀ u, u < c.g.n → 0 ≤ c.g.w u) {wm : Int} (hm : ∀ u, u < c.g.n → c.g.w u ≤ wm)
    {T : Nat} {s : CState} (hr : CReach c T (CState.init c) s) (x : Nat) :
    room T c.g.w s.core x ≤ max (c.g.w x) (c.maxW + (T - 1 : Nat) * wm) := by
  induction hr with
  | refl =>
    refine le_max_of_le_left ?_
    show c.g.w x + ∑ t ∈ range T, (0 : Int) ≤ _
    rw [Finset.sum_const_zero, add_zero]
  | step hr hs ih =>
    cases hs with
    | start => exact ih
    | see => exact ih
    | giveUp => exact ih
    | keep => exact ih
    | move t q ownW fav r ht hl htodo _ hne =>
      refine le_trans (le_of_eq ?_) ih
      have hidle := ((cinv_reach hg (cinv_init c T) hr).look t ht q hl).1
      unfold room
      congr 1
      refine (cadd_upd c.g.w x _ ht _).trans ?_
      rw [hidle]
      show _ - 0 + 0 = _
      omega
    | core t ht hbusy =>
      have := room_next hw hm (cinv_reach hg (cinv_init c T) hr).core c.maxW ht x
      exact le_trans this (max_le ih (le_max_right _ _))

theorem cw_le_room {n T : Nat} {w : Nat → Int} (hw : ∀ u, u < n → 0 ≤ w u) {s : Core} (h : CoreInv n T w s) (x : Nat) :
    s.cw x ≤ room T w s x := by
  unfold room
  have := Finset.sum_nonneg fun t (ht : t ∈ range T) => cadd_nonneg hw (h.valid t (mem_range.1 ht)) x
  omega

/-- **C40, limit**, partial: with `T` threads a cluster may exceed the limit by the weight of `T - 1` nodes; the limit
itself does not hold with several threads (`C40_limit_not_concurrent`).  In a cluster with more than that weight there
is a single node that is heavier than the limit. -/
theorem C40_limit_partial (c : CCfg) (hg : c.g.WF) (hs : c.g.Symm) (hw : ∀ u, u < c.g.n → 0 ≤ c.g.w u) (wm : Int)
    (hm : ∀ u, u < c.g.n → c.g.w u ≤ wm) (h0 : 0 ≤ wm) (T : Nat) (cl : Nat → Nat) (cw : Nat → Int) (h : Clustered c T cl cw)
    (x : Nat) (hx : x < c.g.n) :
    clusterWeight c.g.n c.g.w cl x ≤ max (c.g.w x) (c.maxW + (T - 1 : Nat) * wm) := by
  obtain ⟨s, cl1, cw1, hr, hidle, h1, h2⟩ := h
  obtain ⟨a, _, b⟩ := clustered_spec hg hs hw hr hidle h1 h2
  rw [← a x hx]
  refine le_trans (b x) (max_le ?_ ?_)
  · exact le_trans (cw_le_room hw (cinv_reach hg (cinv_init c T) hr).core x) (lp_room hg hw hm hr x)
  · refine le_max_of_le_right ?_
    have : 0 ≤ ((T - 1 : Nat) : Int) * wm := mul_nonneg (Int.natCast_nonneg _) h0
    omega

/-- **C40, limit**, one thread: every cluster is within the limit unless the node that gave it its number is heavier
than the limit, and then it weighs no more than that node. -/
theorem C40_limit_one_thread (c : CCfg) (hg : c.g.WF) (hs : c.g.Symm) (hw : ∀ u, u < c.g.n → 0 ≤ c.g.w u)
    (cl : Nat → Nat) (cw : Nat → Int) (h : Clustered c 1 cl cw) (x : Nat) (hx : x < c.g.n) :
    clusterWeight c.g.n c.g.w cl x ≤ max (c.g.w x) c.maxW := by
  have hb : ∀ u, u < c.g.n → c.g.w u ≤ ∑ v ∈ range c.g.n, c.g.w v := fun u hu =>
    Finset.single_le_sum (fun v hv => hw v (mem_range.1 hv)) (mem_range.2 hu)
  have := C40_limit_partial c hg hs hw _ hb (Finset.sum_nonneg fun v hv => hw v (mem_range.1 hv)) 1 cl cw h x hx
  simpa using this

/-- **C40, limit**, the passes after label propagation: with any number of threads, in any interleaving, they create no
cluster that is heavier than the limit. -/
theorem C40_limit_passes (c : CCfg) (hg : c.g.WF) (hs : c.g.Symm) (hw : ∀ u, u < c.g.n → 0 ≤ c.g.w u) (T : Nat) (s : CState)
    (hr : CReach c T (CState.init c) s) (hidle : ∀ t, t < T → s.core.pc t = .idle)
    (cl1 cl2 : Nat → Nat) (cw1 cw2 : Nat → Int) (h1 : Pass c T true s.core.cl s.core.cw cl1 cw1)
    (h2 : Pass c T false cl1 cw1 cl2 cw2) (x : Nat) (hx : x < c.g.n) :
    clusterWeight c.g.n c.g.w cl2 x ≤ max (clusterWeight c.g.n c.g.w s.core.cl x) c.maxW := by
  obtain ⟨a, _, b⟩ := clustered_spec hg hs hw hr hidle h1 h2
  rw [← a x hx, ← idle_bal (cinv_reach hg (cinv_init c T) hr).core hidle x hx]
  exact b x

/-! ## The number of clusters -/

/-- The number of non-empty clusters. -/
def numClusters (n : Nat) (cl : Nat → Nat) : Nat := ((range n).image cl).card

theorem cw_zero_iff {n T : Nat} {w : Nat → Int} (hw : ∀ u, u < n → 0 < w u) {s : Core} (h : CoreInv n T w s)
    (hidle : ∀ t, t < T → s.pc t = .idle) {x : Nat} (hx : x < n) : s.cw x = 0 ↔ x ∉ (range n).image s.cl := by
  rw [idle_bal h hidle x hx]
  constructor
  · intro h0 hmem
    obtain ⟨u, hu, rfl⟩ := Finset.mem_image.1 hmem
    have hle := Finset.single_le_sum (s := range n) (f := fun v => if s.cl v = s.cl u then w v else 0)
      (fun v hv => by split; exact le_of_lt (hw v (mem_range.1 hv)); exact le_refl _) hu
    simp only [if_true] at hle
    have := hw u (mem_range.1 hu)
    unfold clusterWeight at h0
    omega
  · intro hn
    refine Finset.sum_eq_zero fun u hu => ?_
    rw [if_neg]
    rintro rfl
    exact hn (Finset.mem_image.2 ⟨u, hu, rfl⟩)

theorem empty_card {n : Nat} {cl : Nat → Nat} (h : ∀ u, u < n → cl u < n) :
    ((range n).filter fun x => x ∉ (range n).image cl).card + numClusters n cl = n := by
  have hsub : (range n).image cl ⊆ range n := by
    intro x hx
    obtain ⟨u, hu, rfl⟩ := Finset.mem_image.1 hx
    exact mem_range.2 (h u (mem_range.1 hu))
  have := Finset.card_sdiff_add_card_eq_card hsub
  rw [Finset.card_range] at this
  have he : ((range n).filter fun x => x ∉ (range n).image cl) = range n \ (range n).image cl := by
    ext x
    rw [Finset.mem_filter, Finset.mem_sdiff]
  rw [he]
  exact this

/-- **C40, count**, all schedules: after label propagation with positive node weights the number of clusters that is
maintained (`n` minus the number of times a cluster was found empty) is never larger than the number of non-empty
clusters.  It may be smaller (`C40_count_not_concurrent`). -/
theorem C40_count_partial (c : CCfg) (hg : c.g.WF) (hw : ∀ u, u < c.g.n → 0 < c.g.w u) (T : Nat) (s : CState)
    (hr : CReach c T (CState.init c) s) (hidle : ∀ t, t < T → s.core.pc t = .idle) :
    (c.g.n : Int) - ∑ x ∈ range c.g.n, (s.core.emptied x : Int) ≤ numClusters c.g.n s.core.cl := by
  have hinv := cinv_reach hg (cinv_init c T) hr
  have hc : Counted c.g.n T s.core := by
    clear hidle hinv
    induction hr with
    | refl =>
      intro x hx h0
      have := hw x hx
      have h0 : c.g.w x = 0 := h0
      omega
    | step hr hs ih =>
      cases hs with
      | start => exact ih
      | see => exact ih
      | giveUp => exact ih
      | keep => exact ih
      | move t q ownW fav r ht hl htodo _ hne =>
        intro x hx h0
        refine (ih x hx h0).imp_right ?_
        rintro ⟨t', ht', hl'⟩
        refine ⟨t', ht', ?_⟩
        show CPC.willLook x (upd _ t _ t')
        rw [upd_ne]
        · exact hl'
        · rintro rfl
          rw [((cinv_reach hg (cinv_init c T) hr).look t' ht q hl).1] at hl'
          exact hl'
      | core t ht hbusy => exact counted_next hw (cinv_reach hg (cinv_init c T) hr).core ih c.maxW ht
  have hcard := empty_card hinv.core.inRange
  have hle : (((range c.g.n).filter fun x => x ∉ (range c.g.n).image s.core.cl).card : Int) ≤
      ∑ x ∈ range c.g.n, (s.core.emptied x : Int) := by
    rw [Finset.card_filter]
    push_cast
    refine Finset.sum_le_sum fun x hx => ?_
    split
    · rename_i hn
      have h0 := (cw_zero_iff hw hinv.core hidle (mem_range.1 hx)).2 hn
      rcases hc x (mem_range.1 hx) h0 with h1 | ⟨t, ht, hl⟩
      · omega
      · rw [hidle t ht] at hl; exact hl.elim
    · exact Int.natCast_nonneg _
  omega

/-- With one thread: what is known about the number of times a cluster was found empty. -/
def oneOk (n : Nat) (s : Core) : CPC → Prop
  | .idle => ∀ x, x < n → s.emptied x = if s.cw x = 0 then 1 else 0
  | .check _ _ dst | .add _ _ dst | .sub _ _ dst =>
    (∀ x, x < n → s.emptied x = if s.cw x = 0 then 1 else 0) ∧ ∃ v, v < n ∧ s.cl v = dst
  | .store _ src _ | .look _ src =>
    (∀ x, x < n → x ≠ src → s.emptied x = if s.cw x = 0 then 1 else 0) ∧ s.emptied src = 0

theorem clusterWeight_pos {n : Nat} {w : Nat → Int} (hw : ∀ u, u < n → 0 < w u) {cl : Nat → Nat} {v : Nat} (hv : v < n) :
    0 < clusterWeight n w cl (cl v) := by
  have hle := Finset.single_le_sum (s := range n) (f := fun u => if cl u = cl v then w u else 0)
    (fun u hu => by split; exact le_of_lt (hw u (mem_range.1 hu)); exact le_refl _) (mem_range.2 hv)
  simp only [if_true] at hle
  have := hw v hv
  unfold clusterWeight
  omega

theorem one_next {n : Nat} {w : Nat → Int} (hw : ∀ u, u < n → 0 < w u) {s : Core} (h : CoreInv n 1 w s)
    (ho : oneOk n s (s.pc 0)) (maxW : Int) : oneOk n (s.next w maxW 0) ((s.next w maxW 0).pc 0) := by
  have hv := h.valid 0 Nat.one_pos
  have hbal := h.bal
  unfold Core.next
  split <;> rename_i hpc <;> rw [hpc] at ho hv
  · rw [hpc]; exact ho
  · split
    · show oneOk n _ (upd s.pc 0 _ 0); rw [upd_same]; exact ho
    · show oneOk n _ (upd s.pc 0 _ 0); rw [upd_same]; exact ho.1
  · rename_i u src dst
    show oneOk n _ (upd s.pc 0 _ 0)
    rw [upd_same]
    refine ⟨fun x hx => ?_, ho.2⟩
    show s.emptied x = if upd s.cw dst (s.cw dst + w u) x = 0 then 1 else 0
    rw [ho.1 x hx]
    by_cases e : x = dst
    · subst e
      obtain ⟨v, hvn, rfl⟩ := ho.2
      have h1 := clusterWeight_pos hw (cl := s.cl) hvn
      have h2 := hbal (s.cl v) hx
      rw [Finset.sum_range_one, hpc] at h2
      have h3 := hw u hv.1
      simp only [cpend] at h2
      rw [upd_same, if_neg (by omega), if_neg (by omega)]
    · rw [upd_ne _ _ e]
  · rename_i u src dst
    obtain ⟨hu, hcl, hsrc, hdst, hne⟩ := hv
    show oneOk n _ (upd s.pc 0 _ 0)
    rw [upd_same]
    refine ⟨fun x hx hxs => ?_, ?_⟩
    · show s.emptied x = if upd s.cw src (s.cw src - w u) x = 0 then 1 else 0
      rw [upd_ne _ _ hxs]; exact ho.1 x hx
    · show s.emptied src = 0
      rw [ho.1 src hsrc, if_neg]
      have h1 := clusterWeight_pos hw (cl := s.cl) hu
      have h2 := hbal src hsrc
      rw [Finset.sum_range_one, hpc] at h2
      simp only [cpend] at h2
      rw [if_neg (Ne.symm hne)] at h2
      rw [hcl] at h1
      omega
  · show oneOk n _ (upd s.pc 0 _ 0); rw [upd_same]; exact ho
  · rename_i u src
    split
    · rename_i hz
      show oneOk n _ (upd s.pc 0 _ 0)
      rw [upd_same]
      intro x hx
      show upd s.emptied src (s.emptied src + 1) x = if s.cw x = 0 then 1 else 0
      by_cases e : x = src
      · subst e; rw [upd_same, if_pos hz, ho.2]
      · rw [upd_ne _ _ e]; exact ho.1 x hx e
    · rename_i hz
      show oneOk n _ (upd s.pc 0 _ 0)
      rw [upd_same]
      intro x hx
      show s.emptied x = if s.cw x = 0 then 1 else 0
      by_cases e : x = src
      · subst e; rw [if_neg hz, ho.2]
      · exact ho.1 x hx e

/-- **C40, count**, one thread: after label propagation with positive node weights the number of clusters that is
maintained is the number of non-empty clusters. -/
theorem C40_count_one_thread (c : CCfg) (hg : c.g.WF) (hw : ∀ u, u < c.g.n → 0 < c.g.w u) (s : CState)
    (hr : CReach c 1 (CState.init c) s) (hidle : s.core.pc 0 = .idle) :
    (c.g.n : Int) - ∑ x ∈ range c.g.n, (s.core.emptied x : Int) = numClusters c.g.n s.core.cl := by
  have hinv := cinv_reach hg (cinv_init c 1) hr
  have hidle' : ∀ t, t < 1 → s.core.pc t = .idle := fun t ht => by rw [Nat.lt_one_iff.1 ht]; exact hidle
  have key : oneOk c.g.n s.core (s.core.pc 0) ∧ ∀ q, s.look 0 = some q → ∀ e ∈ q.m, ∃ v, v < c.g.n ∧ s.core.cl v = e.1 := by
    clear hinv hidle hidle'
    induction hr with
    | refl =>
      refine ⟨fun x hx => ?_, fun q hq => (nomatch hq)⟩
      have := hw x hx
      show 0 = if c.g.w x = 0 then 1 else 0
      rw [if_neg (by omega)]
    | @step s1 s2 hr hs ih =>
      obtain ⟨ih1, ih2⟩ := ih
      have hi := cinv_reach hg (cinv_init c 1) hr
      cases hs with
      | start t u ht hu =>
        obtain rfl := Nat.lt_one_iff.1 ht
        refine ⟨ih1, fun q hq => ?_⟩
        replace hq : upd s1.look 0 _ 0 = some q := hq
        rw [upd_same] at hq
        cases hq
        exact fun e he => (nomatch he)
      | see t q l1 l2 e ht hl htodo =>
        obtain rfl := Nat.lt_one_iff.1 ht
        refine ⟨ih1, fun q' hq' => ?_⟩
        replace hq' : upd s1.look 0 _ 0 = some q' := hq'
        rw [upd_same] at hq'
        cases hq'
        intro e' he'
        rcases (addTo_keys q.m (s1.core.cl e.1) e.2 e'.1).1 (List.mem_map.2 ⟨_, he', rfl⟩) with he' | he'
        · obtain ⟨_, a2, _, a5, _⟩ := hi.look 0 ht q hl
          exact ⟨e.1, hg q.u a2 e (a5 e (by rw [htodo]; simp)), he'.symm⟩
        · obtain ⟨e'', he'', heq⟩ := List.mem_map.1 he'
          rw [← heq]
          exact ih2 q hl e'' he''
      | giveUp t q ht hl =>
        obtain rfl := Nat.lt_one_iff.1 ht
        refine ⟨ih1, fun q hq => ?_⟩
        replace hq : upd s1.look 0 _ 0 = some q := hq
        rw [upd_same] at hq
        cases hq
      | keep t q ownW fav r ht =>
        obtain rfl := Nat.lt_one_iff.1 ht
        refine ⟨ih1, fun q hq => ?_⟩
        replace hq : upd s1.look 0 _ 0 = some q := hq
        rw [upd_same] at hq
        cases hq
      | move t q ownW fav r ht hl htodo hr' hne =>
        obtain rfl := Nat.lt_one_iff.1 ht
        obtain ⟨a1, a2, a3, a5, a6⟩ := hi.look 0 ht q hl
        refine ⟨?_, fun q hq => ?_⟩
        · show oneOk c.g.n _ (upd s1.core.pc 0 _ 0)
          rw [upd_same]
          rw [a1] at ih1
          refine ⟨ih1, ?_⟩
          have hbest : (r.best, r.gain) ∈ q.m := by
            rcases hr'.spec.1 with ⟨e, _⟩ | ⟨e, _⟩
            · exact absurd (by rw [a3, e]) hne
            · exact e
          exact ih2 q hl _ hbest
        · replace hq : upd s1.look 0 none 0 = some q := hq
          rw [upd_same] at hq
          cases hq
      | core t ht hbusy =>
        obtain rfl := Nat.lt_one_iff.1 ht
        refine ⟨one_next hw hi.core ih1 c.maxW, fun q hq => ?_⟩
        exact absurd (hi.look 0 ht q hq).1 hbusy
  have h1 := key.1
  rw [hidle] at h1
  have hcard := empty_card hinv.core.inRange
  have hle : (((range c.g.n).filter fun x => x ∉ (range c.g.n).image s.core.cl).card : Int) =
      ∑ x ∈ range c.g.n, (s.core.emptied x : Int) := by
    rw [Finset.card_filter]
    push_cast
    refine Finset.sum_congr rfl fun x hx => ?_
    rw [h1 x (mem_range.1 hx)]
    have := cw_zero_iff hw hinv.core hidle' (mem_range.1 hx)
    split
    · rename_i hn; rw [if_pos (this.2 hn)]; rfl
    · rename_i hn; rw [if_neg (fun h => hn (this.1 h))]; rfl
  omega

/-! ## The property is false with several threads -/

/-- A star with two leaves. -/
def starCfg : CCfg where
  g := { n := 3, w := fun _ => 1, adj := fun u => if u = 0 then [(1, 1), (2, 1)] else [(0, 1)] }
  maxW := 2
  comm := fun _ => 0
  lim := 10
  uniform := true

theorem star_free {n : Nat} {s : CState} {u v : Nat} (h0 : s.core.pc 0 = .idle ∨ (s.core.pc 0).node? = some v) (h1 : (s.core.pc 1) = .idle)
    (hl0 : s.look 0 = none ∨ ∃ q, s.look 0 = some q ∧ q.u = v) (hl1 : s.look 1 = none) (hne : v ≠ u) (hn : n ≤ 2) :
    ∀ t', t' < n → (s.core.pc t').node? ≠ some u ∧ ∀ q, s.look t' = some q → q.u ≠ u := by
  intro t' ht'
  have : t' = 0 ∨ t' = 1 := by omega
  rcases this with rfl | rfl
  · constructor
    · rcases h0 with h | h <;> rw [h]
      · exact (nomatch ·)
      · intro e; cases e; exact hne rfl
    · intro q hq
      rcases hl0 with h | ⟨q', h, h'⟩
      · rw [h] at hq; cases hq
      · rw [h] at hq; cases hq; rw [h']; exact hne
  · rw [h1, hl1]
    exact ⟨(nomatch ·), fun q hq => (nomatch hq)⟩

/-- Both leaves join the cluster of the center at the same time: each thread checks the weight before the other one adds
its own, and the limit 2 is exceeded by unit weight nodes. -/
theorem C40_limit_not_concurrent : ∃ cl cw, Clustered starCfg 2 cl cw ∧
    clusterWeight starCfg.g.n starCfg.g.w cl 0 = 3 ∧ starCfg.maxW = 2 ∧ ∀ u, starCfg.g.w u = 1 := by
  refine ⟨_, _, ⟨_, _, _, .step (.step (.step (.step (.step (.step (.step (.step (.step (.step (.step (.step (.step (.step (.step (.step (.refl _)
    (.start _ 0 1 (by decide) (by decide) rfl rfl ?_))
    (.start _ 1 2 (by decide) (by decide) rfl rfl ?_))
    (.see _ 0 _ [] [] (0, 1) (by decide) rfl rfl))
    (.see _ 1 _ [] [] (0, 1) (by decide) rfl rfl))
    (.move _ 0 _  1 false (select (.cluster true fun _ => 0) ⟨1, 1, 1, fun _ => 2, false⟩ [⟨0, 1, 1, true⟩] 0 0) (by decide) rfl rfl
      (.single [⟨0, 1, 1, true⟩] 0 0 (.refl _) (by decide)) (by decide)))
    (.move _ 1 _  1 false (select (.cluster true fun _ => 0) ⟨1, 2, 1, fun _ => 2, false⟩ [⟨0, 1, 1, true⟩] 0 0) (by decide) rfl rfl
      (.single [⟨0, 1, 1, true⟩] 0 0 (.refl _) (by decide)) (by decide)))
    (.core _ 0 (by decide) (by decide)))
    (.core _ 1 (by decide) (by decide)))
    (.core _ 0 (by decide) (by decide)))
    (.core _ 1 (by decide) (by decide)))
    (.core _ 0 (by decide) (by decide)))
    (.core _ 1 (by decide) (by decide)))
    (.core _ 0 (by decide) (by decide)))
    (.core _ 1 (by decide) (by decide)))
    (.core _ 0 (by decide) (by decide)))
    (.core _ 1 (by decide) (by decide)), ?_, .inl ⟨rfl, rfl⟩, .inl ⟨rfl, rfl⟩⟩, ?_, rfl, fun _ => rfl⟩
  · exact star_free (v := 0) (.inl rfl) rfl (.inl rfl) rfl (by decide) (by decide)
  · exact star_free (v := 1) (.inl rfl) rfl (.inr ⟨_, rfl, rfl⟩) rfl (by decide) (by decide)
  all_goals decide

/-- A triangle. -/
def triCfg (w : Int) : CCfg where
  g := { n := 3, w := fun _ => w, adj := fun u => if u = 0 then [(1, 1), (2, 1)] else if u = 1 then [(0, 1), (2, 1)] else [(0, 1), (1, 1)] }
  maxW := 3
  comm := fun _ => 0
  lim := 10
  uniform := true

/-- Node 0 joins node 1; then both go to the cluster of node 2 at the same time, both threads find their old cluster
empty and both count it: the maintained number of clusters is 0 although there is a cluster. -/
theorem C40_count_not_concurrent : ∃ s, CReach (triCfg 1) 2 (CState.init (triCfg 1)) s ∧ (∀ t, t < 2 → s.core.pc t = .idle) ∧
    ((triCfg 1).g.n : Int) - ∑ x ∈ range (triCfg 1).g.n, (s.core.emptied x : Int) = 0 ∧ numClusters 3 s.core.cl = 1 := by
  refine ⟨_, .step (.step (.step (.step (.step (.step (.step (.step (.step (.step (.step (.step (.step (.step (.step (.step (.step (.step (.step (.step (.step (.step (.step (.step (.step (.step (.step (.refl _)
    (.start _ 0 0 (by decide) (by decide) rfl rfl ?_))
    (.see _ 0 _ [] [(2, 1)] (1, 1) (by decide) rfl rfl))
    (.see _ 0 _ [] [] (2, 1) (by decide) rfl rfl))
    (.move _ 0 _  1 false (select (.cluster true fun _ => 0) ⟨1, 0, 1, fun _ => 3, false⟩ [⟨1, 1, 1, true⟩, ⟨2, 1, 1, true⟩] 0 0) (by decide) rfl rfl
      (.single [⟨1, 1, 1, true⟩, ⟨2, 1, 1, true⟩] 0 0 (.refl _) (by decide)) (by decide)))
    (.core _ 0 (by decide) (by decide)))
    (.core _ 0 (by decide) (by decide)))
    (.core _ 0 (by decide) (by decide)))
    (.core _ 0 (by decide) (by decide)))
    (.core _ 0 (by decide) (by decide)))
    (.start _ 0 0 (by decide) (by decide) rfl rfl ?_))
    (.start _ 1 1 (by decide) (by decide) rfl rfl ?_))
    (.see _ 0 _ [] [(2, 1)] (1, 1) (by decide) rfl rfl))
    (.see _ 0 _ [] [] (2, 1) (by decide) rfl rfl))
    (.see _ 1 _ [] [(2, 1)] (0, 1) (by decide) rfl rfl))
    (.see _ 1 _ [] [] (2, 1) (by decide) rfl rfl))
    (.move _ 0 _  2 false (select (.cluster true fun _ => 0) ⟨1, 1, 2, fun _ => 3, false⟩ [⟨1, 1, 2, true⟩, ⟨2, 1, 1, true⟩] 1 0) (by decide) rfl rfl
      (.single [⟨1, 1, 2, true⟩, ⟨2, 1, 1, true⟩] 1 0 (.refl _) (by decide)) (by decide)))
    (.move _ 1 _  2 false (select (.cluster true fun _ => 0) ⟨1, 1, 2, fun _ => 3, false⟩ [⟨1, 1, 2, true⟩, ⟨2, 1, 1, true⟩] 1 0) (by decide) rfl rfl
      (.single [⟨1, 1, 2, true⟩, ⟨2, 1, 1, true⟩] 1 0 (.refl _) (by decide)) (by decide)))
    (.core _ 0 (by decide) (by decide)))
    (.core _ 1 (by decide) (by decide)))
    (.core _ 0 (by decide) (by decide)))
    (.core _ 1 (by decide) (by decide)))
    (.core _ 0 (by decide) (by decide)))
    (.core _ 1 (by decide) (by decide)))
    (.core _ 0 (by decide) (by decide)))
    (.core _ 1 (by decide) (by decide)))
    (.core _ 0 (by decide) (by decide)))
    (.core _ 1 (by decide) (by decide)), ?_, ?_, ?_⟩
  · exact star_free (v := 1) (.inl rfl) rfl (.inl rfl) rfl (by decide) (by decide)
  · exact star_free (v := 1) (.inl rfl) rfl (.inl rfl) rfl (by decide) (by decide)
  · exact star_free (v := 0) (.inl rfl) rfl (.inr ⟨_, rfl, rfl⟩) rfl (by decide) (by decide)
  all_goals decide

/-- With nodes of weight zero a single thread counts clusters as empty that are not: there are two clusters, counted
is one. -/
theorem C40_count_not_zero_weight : ∃ s, CReach (triCfg 0) 1 (CState.init (triCfg 0)) s ∧ s.core.pc 0 = .idle ∧
    ((triCfg 0).g.n : Int) - ∑ x ∈ range (triCfg 0).g.n, (s.core.emptied x : Int) = 1 ∧ numClusters 3 s.core.cl = 2 := by
  refine ⟨_, .step (.step (.step (.step (.step (.step (.step (.step (.step (.step (.step (.step (.step (.step (.step (.step (.step (.step (.refl _)
    (.start _ 0 0 (by decide) (by decide) rfl rfl ?_))
    (.see _ 0 _ [] [(2, 1)] (1, 1) (by decide) rfl rfl))
    (.see _ 0 _ [] [] (2, 1) (by decide) rfl rfl))
    (.move _ 0 _  0 false (select (.cluster true fun _ => 0) ⟨0, 0, 0, fun _ => 3, false⟩ [⟨1, 1, 0, true⟩, ⟨2, 1, 0, true⟩] 0 0) (by decide) rfl rfl
      (.single [⟨1, 1, 0, true⟩, ⟨2, 1, 0, true⟩] 0 0 (.refl _) (by decide)) (by decide)))
    (.core _ 0 (by decide) (by decide)))
    (.core _ 0 (by decide) (by decide)))
    (.core _ 0 (by decide) (by decide)))
    (.core _ 0 (by decide) (by decide)))
    (.core _ 0 (by decide) (by decide)))
    (.start _ 0 0 (by decide) (by decide) rfl rfl ?_))
    (.see _ 0 _ [] [(2, 1)] (1, 1) (by decide) rfl rfl))
    (.see _ 0 _ [] [] (2, 1) (by decide) rfl rfl))
    (.move _ 0 _  0 false (select (.cluster true fun _ => 0) ⟨0, 1, 0, fun _ => 3, false⟩ [⟨1, 1, 0, true⟩, ⟨2, 1, 0, true⟩] 1 0) (by decide) rfl rfl
      (.single [⟨1, 1, 0, true⟩, ⟨2, 1, 0, true⟩] 1 0 (.refl _) (by decide)) (by decide)))
    (.core _ 0 (by decide) (by decide)))
    (.core _ 0 (by decide) (by decide)))
    (.core _ 0 (by decide) (by decide)))
    (.core _ 0 (by decide) (by decide)))
    (.core _ 0 (by decide) (by decide)), ?_, ?_, ?_⟩
  · exact star_free (v := 1) (.inl rfl) rfl (.inl rfl) rfl (by decide) (by decide)
  · exact star_free (v := 1) (.inl rfl) rfl (.inl rfl) rfl (by decide) (by decide)
  all_goals decide

/-- Two isolated nodes. -/
def isoCfg : CCfg where
  g := { n := 2, w := fun _ => 1, adj := fun _ => [] }
  maxW := 2
  comm := fun _ => 0
  lim := 10
  uniform := true

theorem iso_pass : ∃ s, MPass ⟨isoCfg.g, isoCfg.maxW, true, false, fun _ => 0⟩ 1 id isoCfg.g.w s ∧ s.cl 0 = 0 ∧ s.cl 1 = 0 ∧
    s.cw 0 = 2 := by
  refine ⟨_, ⟨.step (.step (.step (.step (.step (.step (.step (.refl _) (.begin _ 0 0 (by decide) (by decide) rfl rfl))
    (.begin _ 0 1 (by decide) (by decide) rfl rfl)) (.next _ 0 (by decide) (by decide))) (.next _ 0 (by decide) (by decide)))
    (.next _ 0 (by decide) (by decide))) (.next _ 0 (by decide) (by decide))) (.next _ 0 (by decide) (by decide)), ?_, ?_⟩,
    ?_, ?_, ?_⟩
  all_goals decide

/-- The passes after label propagation do not maintain the number of clusters at all: it is 2 after label propagation
(nothing has moved, no cluster was found empty) and remains 2, but the pass for isolated nodes leaves one cluster. -/
theorem C40_count_not_updated_by_passes : ∃ cl cw, Pass isoCfg 1 true id isoCfg.g.w cl cw ∧
    (CState.init isoCfg).core.cl = id ∧ numClusters 2 (CState.init isoCfg).core.cl = 2 ∧ numClusters 2 cl = 1 := by
  obtain ⟨s, h, h0, h1, _⟩ := iso_pass
  refine ⟨s.cl, s.cw, .inr ⟨_, _, s, h, rfl, rfl⟩, rfl, by decide, ?_⟩
  unfold numClusters
  have : (range 2).image s.cl = {0} := by
    ext x
    simp only [Finset.mem_image, mem_range, Finset.mem_singleton]
    constructor
    · rintro ⟨u, hu, rfl⟩
      have : u = 0 ∨ u = 1 := by omega
      rcases this with rfl | rfl
      · exact h0
      · exact h1
    · rintro rfl
      exact ⟨0, by decide, h0⟩
  rw [this]
  rfl

/-! ## Non-vacuity -/

theorem triOk : (triCfg 1).g.WF ∧ (triCfg 1).g.Symm ∧ ∀ u, u < (triCfg 1).g.n → 0 < (triCfg 1).g.w u := by
  refine ⟨?_, ?_, by decide⟩
  · intro u hu e he
    have : u = 0 ∨ u = 1 ∨ u = 2 := by have : u < 3 := hu; omega
    rcases this with rfl | rfl | rfl <;> revert e <;> decide
  · intro u v c hu hv
    have h1 : u = 0 ∨ u = 1 ∨ u = 2 := (by simp only [triCfg] at hu; omega)
    have h2 : v = 0 ∨ v = 1 ∨ v = 2 := (by simp only [triCfg] at hv; omega)
    rcases h1 with rfl | rfl | rfl <;> rcases h2 with rfl | rfl | rfl <;>
      simp [triCfg, List.count_cons, List.count_nil]

theorem tri_run : ∃ s, CReach (triCfg 1) 1 (CState.init (triCfg 1)) s ∧ s.core.pc 0 = .idle ∧ s.core.cl 0 = 1 ∧
    numClusters 3 s.core.cl = 2 ∧ s.core.emptied 0 = 1 := by
  refine ⟨_, .step (.step (.step (.step (.step (.step (.step (.step (.step (.refl _)
    (.start _ 0 0 (by decide) (by decide) rfl rfl ?_))
    (.see _ 0 _ [] [(2, 1)] (1, 1) (by decide) rfl rfl))
    (.see _ 0 _ [] [] (2, 1) (by decide) rfl rfl))
    (.move _ 0 _  1 false (select (.cluster true fun _ => 0) ⟨1, 0, 1, fun _ => 3, false⟩ [⟨1, 1, 1, true⟩, ⟨2, 1, 1, true⟩] 0 0) (by decide) rfl rfl
      (.single [⟨1, 1, 1, true⟩, ⟨2, 1, 1, true⟩] 0 0 (.refl _) (by decide)) (by decide)))
    (.core _ 0 (by decide) (by decide)))
    (.core _ 0 (by decide) (by decide)))
    (.core _ 0 (by decide) (by decide)))
    (.core _ 0 (by decide) (by decide)))
    (.core _ 0 (by decide) (by decide)), ?_, ?_, ?_, ?_⟩
  · exact star_free (v := 1) (.inl rfl) rfl (.inl rfl) rfl (by decide) (by decide)
  all_goals decide

/-- `C40_weights`, `C40_limit_partial`, `C40_limit_one_thread`, `C40_count_partial`, `C40_count_one_thread`. -/
example : (triCfg 1).g.WF ∧ (triCfg 1).g.Symm ∧ (∀ u, u < (triCfg 1).g.n → 0 < (triCfg 1).g.w u) ∧
    ∃ s, CReach (triCfg 1) 1 (CState.init (triCfg 1)) s ∧ s.core.pc 0 = .idle ∧ s.core.cl 0 = 1 ∧
      Clustered (triCfg 1) 1 s.core.cl s.core.cw := by
  obtain ⟨s, h1, h2, h3, _⟩ := tri_run
  refine ⟨triOk.1, triOk.2.1, triOk.2.2, s, h1, h2, h3, s, _, _, h1, fun t ht => ?_, .inl ⟨rfl, rfl⟩, .inl ⟨rfl, rfl⟩⟩
  rw [Nat.lt_one_iff.1 ht]
  exact h2

/-- `C40_weights`, `C40_limit_passes` with a pass that merges two nodes. -/
example : isoCfg.g.WF ∧ isoCfg.g.Symm ∧ (∀ u, u < isoCfg.g.n → 0 ≤ isoCfg.g.w u) ∧
    ∃ cl cw, Clustered isoCfg 1 cl cw ∧ cl 1 = 0 ∧ cw 0 = 2 := by
  obtain ⟨s, h, h0, h1, h2⟩ := iso_pass
  exact ⟨fun u _ e he => (nomatch he), fun u v c _ _ => rfl, by decide, s.cl, s.cw,
    ⟨CState.init isoCfg, s.cl, s.cw, .refl _, fun _ _ => rfl, .inr ⟨_, _, s, h, rfl, rfl⟩, .inl ⟨rfl, rfl⟩⟩, h1, h2⟩

end Verif.LP
