import Verif.InitialPool.Pool
import Verif.InitialCoarsening.Props

/-!
# C57: Multilevel bipartitioning keeps the best bipartition of the pool
-/

namespace Verif.InitialPool
open Finset
open Verif.InitialFM (Cfg Bipartition blockW over)
open Verif.FlatBip (Bip Kind)
open Verif.InitialCoarsening (Coarsener project projectAll projectedWeights Level Hierarchy top CInv BucketsOk Clus)
open Verif.Contraction (Contracted blockWeight wt_of_mem)

/-! ## The pool -/

theorem PInv.init (c : Cfg) (pc : PoolCfg) (rd : ℚ → ℚ) (cap inf : Nat) (cur best : Bip) (winner : Nat) :
    PInv c pc rd cap inf (.init c.maxKey cur best winner) := by
  constructor
  · intro x hx; cases hx
  · intro x hx; cases hx
  · intro _; exact ⟨rfl, rfl⟩
  · intro h; exact absurd rfl h
  · intro x hx; cases hx

theorem produced_lt {c : Cfg} {pc : PoolCfg} {cap inf i : Nat} {s : Bip} (h : Produced c pc cap inf i s) : i < pc.kinds.length := by
  obtain ⟨kind, _, _, _, h, _⟩ := h
  exact (List.getElem?_eq_some_iff.1 h).1

/-- **C57**, the pool.  For every graph, all random choices, all decisions of the statistics, and whatever an earlier use left behind:
every run gives a complete bipartition with exact block weights; each bipartitioner is run at least as often as demanded and at most
as often as allowed; and the bipartition that is returned is the result of one of the runs, and none of the runs has a better result.  The cuts
have to be less than the largest number, with which the search for the best one starts. -/
theorem C57_pool (c : Cfg) (hg : InitialFM.Valid c.g) (pc : PoolCfg) (rd : ℚ → ℚ) (cap inf : Nat) (hcap : c.g.n ≤ cap) (hinf : 0 < inf)
    (hcut : ∀ q, c.g.cut q < c.maxKey) (num : Int) (o : Nat → Nat → RunOracle) (ho : ∀ r i, (o r i).Ok c.g.n) (cur best : Bip) (winner : Nat) :
    ∃ p, pool? c pc rd cap inf num o (.init c.maxKey cur best winner) = some p ∧
      (∀ x ∈ p.runs, Bipartition c.g x.2.part x.2.bw ∧ Produced c pc cap inf x.1 x.2) ∧
      (∀ i, i < pc.kinds.length → runsOf i p.runs ≤ pc.repetitions num ∧ min (pc.repetitions num) pc.minNonAdaptive.toNat ≤ runsOf i p.runs ∧
        (pc.adaptive = false → runsOf i p.runs = pc.repetitions num)) ∧
      (p.runs ≠ [] → (p.winner, p.best) ∈ p.runs ∧ ∀ x ∈ p.runs, AsGood c.g c.maxW rd p.best.part x.2.part) := by
  obtain ⟨p, h1, h2, h3⟩ := pool_ok hg hcap hinf hcut ho _ (PInv.init c pc rd cap inf cur best winner) rfl (pc.repetitions num)
  exact ⟨p, h1, fun x hx => ⟨h2.bip x hx, h2.origin x hx⟩, h3, fun hn => ⟨(h2.best hn).1, h2.good⟩⟩

theorem runs_nonempty {p : Pool} {pc : PoolCfg} {reps : Nat} (hk : pc.kinds ≠ []) (hr : 0 < reps) (ha : 0 < pc.minNonAdaptive ∨ pc.adaptive = false)
    (h : ∀ i, i < pc.kinds.length → runsOf i p.runs ≤ reps ∧ min reps pc.minNonAdaptive.toNat ≤ runsOf i p.runs ∧
      (pc.adaptive = false → runsOf i p.runs = reps)) : p.runs ≠ [] := by
  intro h0
  obtain ⟨_, h1, h2⟩ := h 0 (List.length_pos_iff.2 hk)
  rw [h0] at h1 h2
  rcases ha with ha | ha
  · have : min reps pc.minNonAdaptive.toNat ≤ 0 := h1
    omega
  · have : 0 = reps := h2 ha
    omega

/-- **C57**, what fails: if no repetition without selection is demanded, then no bipartitioner is ever run, and the bipartition that is
returned is whatever was in the memory. -/
theorem C57_not_without_runs (c : Cfg) (pc : PoolCfg) (ha : pc.adaptive = true) (hm : pc.minNonAdaptive ≤ 0) (rd : ℚ → ℚ) (cap inf : Nat)
    (num : Int) (o : Nat → Nat → RunOracle) (cur best : Bip) (winner : Nat) :
    ∃ p, pool? c pc rd cap inf num o (.init c.maxKey cur best winner) = some p ∧ p.best = best ∧ p.runs = [] := by
  refine ⟨.init c.maxKey cur best winner, ?_, rfl, rfl⟩
  unfold pool?
  generalize pc.repetitions num = reps
  induction reps with
  | zero => rfl
  | succ reps ih =>
    rw [List.range_succ, List.foldlM_append, ih]
    simp only [Option.bind_eq_bind, Option.bind_some, List.foldlM_cons, List.foldlM_nil]
    unfold repetition?
    generalize pc.kinds.zipIdx = l
    induction l with
    | nil => rfl
    | cons x l ihl =>
      rw [List.foldlM_cons, if_neg]
      · exact ihl
      · unfold Pool.runs? Pool.init
        simp [ha]
        omega

/-! ## The hierarchy -/

theorem wt_nonneg {g : Graph} {u v : Nat} (h : ∀ e ∈ g.adj u, 0 ≤ e.2) : 0 ≤ g.wt u v := by
  unfold Graph.wt
  apply List.sum_nonneg
  intro x hx
  obtain ⟨e, he, rfl⟩ := List.mem_map.1 hx
  exact h e (List.mem_filter.1 he).1

theorem contracted_valid {g h : Graph} {mapping : Nat → Nat} (hg : InitialFM.Valid g) (hc : Contracted g mapping h) : InitialFM.Valid h := by
  refine ⟨hc.wf, hc.symm hg.wf hg.symm, hc.loopless, fun c hcn e he => ?_⟩
  have h1 : h.wt c e.1 = e.2 := wt_of_mem (hc.simple c hcn) he
  rw [← h1, hc.edge c e.1 hcn (hc.wf c hcn e he) (Ne.symm (hc.loopless c hcn e he))]
  refine Finset.sum_nonneg fun u hu => Finset.sum_nonneg fun v _ => ?_
  split
  · exact wt_nonneg (hg.nonneg u (mem_range.1 hu))
  · exact le_refl _

theorem hierarchy_valid {M : Int} {g : Graph} (hg : InitialFM.Valid g) : ∀ (levels : List (Graph × (Nat → Nat))),
    Hierarchy (Level M) g levels → InitialFM.Valid (top g levels)
  | [], _ => hg
  | (_, _) :: levels, h => contracted_valid (hierarchy_valid hg levels h.2) h.1.contracted

theorem coarsen_shrinks {mc : MlCfg} (hconv : ∀ n, mc.conv n n = true) {g : Graph} {buckets : Nat} {start : Nat → Nat} {cap : Nat} {c : Coarsener}
    (hb : BucketsOk g.n buckets start) (h : CInv mc.bits mc.maxCluster g buckets start cap c) {o : InitialCoarsening.Oracle}
    (ho : o.Ok buckets start) :
    ∃ c', coarsen? mc o c = some c' ∧ CInv mc.bits mc.maxCluster g buckets start cap c' ∧
      (c'.levels.length ≠ c.levels.length → c'.current.n < c.current.n) := by
  obtain ⟨c1, h1, _⟩ := InitialCoarsening.coarsen_ok hb h (le_refl _) ho
  obtain ⟨st, h2, _⟩ := Option.bind_eq_some_iff.1 h1
  unfold coarsen?
  rw [h2]
  simp only [Option.bind_eq_bind, Option.bind_some]
  generalize ho' : ({ o with converged := mc.conv (c.current.n - st.cl.moves) c.current.n } : InitialCoarsening.Oracle) = o'
  have hcl : c.cluster? mc.bits mc.maxCluster o' = some st := by rw [← ho']; exact h2
  obtain ⟨c', h3, h4, _, _⟩ := InitialCoarsening.coarsen_ok hb h (le_refl _) (o := o') (by rw [← ho']; exact ⟨ho.chunks, ho.perm⟩)
  refine ⟨c', h3, h4, fun hne => ?_⟩
  unfold Coarsener.coarsen? at h3
  rw [hcl] at h3
  simp only [Option.bind_eq_bind, Option.bind_some] at h3
  by_cases hc : o'.converged = true
  · rw [if_pos hc] at h3
    cases h3
    exact absurd rfl hne
  · rw [if_neg hc] at h3
    obtain ⟨⟨k, mapping, st', coll⟩, h5, h6⟩ := Option.bind_eq_some_iff.1 h3
    cases h6
    have hk : k.n = c.current.n - st.cl.moves := by
      unfold InitialCoarsening.contract? at h5
      obtain ⟨a, _, h7⟩ := Option.bind_eq_some_iff.1 h5
      obtain ⟨b, _, h8⟩ := Option.bind_eq_some_iff.1 h7
      cases h8
      rfl
    show k.n < c.current.n
    by_contra hge
    apply hc
    rw [← ho']
    show mc.conv (c.current.n - st.cl.moves) c.current.n = true
    rw [show c.current.n - st.cl.moves = c.current.n by omega]
    exact hconv _

theorem coarsenLoop_ok {mc : MlCfg} (hconv : ∀ n, mc.conv n n = true) {g : Graph} {buckets : Nat} {start : Nat → Nat} {cap : Nat}
    (hb : BucketsOk g.n buckets start) {o : Nat → InitialCoarsening.Oracle} (ho : ∀ t, (o t).Ok buckets start) :
    ∀ (fuel t : Nat) (c : Coarsener), CInv mc.bits mc.maxCluster g buckets start cap c → c.current.n ≤ fuel →
    ∃ c', coarsenLoop? mc o fuel t c = some c' ∧ CInv mc.bits mc.maxCluster g buckets start cap c'
  | 0, t, c, h, hf => by
    unfold coarsenLoop?
    rw [if_neg (by omega)]
    exact ⟨c, rfl, h⟩
  | fuel + 1, t, c, h, hf => by
    unfold coarsenLoop?
    by_cases hl : mc.limit < c.current.n
    · rw [if_pos hl]
      obtain ⟨c1, h1, h2, h3⟩ := coarsen_shrinks hconv hb h (ho t)
      simp only [h1, Option.bind_eq_bind, Option.bind_some]
      by_cases hne : c1.levels.length ≠ c.levels.length
      · rw [if_pos hne]
        have := h3 hne
        exact coarsenLoop_ok hconv hb ho fuel (t + 1) c1 h2 (by omega)
      · rw [if_neg hne]
        exact ⟨c1, rfl, h2⟩
    · rw [if_neg hl]
      exact ⟨c, rfl, h⟩

theorem uncoarsen_ok {c : Cfg} {mc : MlCfg} {M : Int} (hg : InitialFM.Valid c.g) {o : Nat → Nat → Nat → InitialFM.Oracle}
    (ho : ∀ n l i, (o n l i).Ok n) : ∀ (levels : List (Graph × (Nat → Nat))) (s : Bip), Hierarchy (Level M) c.g levels →
    Bipartition (top c.g levels) s.part s.bw →
    ∃ s', uncoarsen? c mc o levels s = some s' ∧ Bipartition c.g s'.part s'.bw ∧ c.g.cut s'.part ≤ (top c.g levels).cut s.part ∧
      over c.g c.maxW s'.part ≤ over (top c.g levels) c.maxW s.part
  | [], s, _, hb => ⟨s, rfl, hb, le_refl _, le_refl _⟩
  | (k, m) :: levels, s, h, hb => by
    have hv := hierarchy_valid hg levels h.2
    obtain ⟨h1, h2, h3⟩ := InitialCoarsening.C54_pop M _ k hv.wf hv.symm m h.1 s.part
    have hbw : ∀ b, blockW (top c.g levels) (project m s.part) b = blockW k s.part b := by
      intro b
      rw [← show projectedWeights (top c.g levels) (project m s.part) b = blockW k s.part b from h2 b]
      exact (InitialCoarsening.projectedWeights_eq _ _ b).symm
    have hb' : Bipartition (top c.g levels) (project m s.part) (projectedWeights (top c.g levels) (project m s.part)) := by
      refine ⟨fun u hu => ?_, ?_, ?_⟩
      · rw [(h1 u hu).1]; exact hb.lt _ (h1 u hu).2
      · exact InitialCoarsening.projectedWeights_eq _ _ 0
      · exact InitialCoarsening.projectedWeights_eq _ _ 1
    obtain ⟨s1, h4, h5, h6, h7⟩ := refineWith_ok (c := { c with g := top c.g levels }) hv mc.refine (ho (top c.g levels).n levels.length)
      (s := ⟨project m s.part, projectedWeights (top c.g levels) (project m s.part)⟩) hb'
    obtain ⟨s2, h8, h9, h10, h11⟩ := uncoarsen_ok (mc := mc) hg ho levels s1 h.2 h5
    refine ⟨s2, ?_, h9, ?_, ?_⟩
    · have e : uncoarsen? c mc o ((k, m) :: levels) s = (refineWith? { c with g := top c.g levels } mc.refine
          (o (top c.g levels).n levels.length) ⟨project m s.part, projectedWeights (top c.g levels) (project m s.part)⟩).bind
          (uncoarsen? c mc o levels) := by cases levels <;> rfl
      rw [e, h4]
      exact h8
    · exact h10.trans (h6.trans (le_of_eq h3))
    · refine h11.trans (h7.trans (le_of_eq ?_))
      show over (top c.g levels) c.maxW (project m s.part) = over k c.maxW s.part
      unfold over
      rw [hbw, hbw]

/-- **C57**.  For every graph with at least one node, all random choices, and whatever earlier uses left behind: multilevel bipartitioning
ends, no operation is undefined, and the result is a complete bipartition of the graph with exact block weights.  The pool was run on the coarsest
graph of a faithful hierarchy, at least once.  Compared to the results of all these runs, projected to the input graph: if one
of them is feasible, then the final bipartition is feasible and cuts no more edges than it; if none is feasible, the final
bipartition cuts no more edges than any of them. -/
theorem C57_multilevel (c : Cfg) (mc : MlCfg) (rd : ℚ → ℚ) (hg : InitialCoarsening.Valid mc.bits c.g)
    (hloop : ∀ u, u < c.g.n → ∀ e ∈ c.g.adj u, e.1 ≠ u) (hcut : ∀ q, c.g.cut q < c.maxKey)
    (hconv : ∀ n, mc.conv n n = true) (hk : mc.pool.kinds ≠ []) (hr : 0 < mc.pool.repetitions mc.repetitions)
    (ha : 0 < mc.pool.minNonAdaptive ∨ mc.pool.adaptive = false)
    (cap inf : Nat) (hcap : c.g.n ≤ cap) (hinf : 0 < inf) (buckets : Nat) (start : Nat → Nat) (hb : BucketsOk c.g.n buckets start)
    (o : MlOracle) (ho : o.Ok buckets start) (cl : Clus) (ilocked : Bool) (imax : Int) (cur best : Bip) (winner : Nat) :
    ∃ r, partition? c mc rd cap inf o (.init c.g buckets start cap cl ilocked imax) cur best winner = some r ∧
      Bipartition c.g r.bip.part r.bip.bw ∧ Hierarchy (Level mc.maxCluster) c.g r.levels ∧ r.pool.runs ≠ [] ∧
      (∀ x ∈ r.pool.runs, Bipartition (top c.g r.levels) x.2.part x.2.bw) ∧
      ∀ x ∈ r.pool.runs,
        (Feasible c.g c.maxW (projectAll r.levels x.2.part) →
          Feasible c.g c.maxW r.bip.part ∧ c.g.cut r.bip.part ≤ c.g.cut (projectAll r.levels x.2.part)) ∧
        ((∀ y ∈ r.pool.runs, ¬ Feasible c.g c.maxW (projectAll r.levels y.2.part)) →
          c.g.cut r.bip.part ≤ c.g.cut (projectAll r.levels x.2.part)) := by
  have hv : InitialFM.Valid c.g := ⟨hg.wf, hg.symm, hloop, fun u hu e he => le_of_lt (hg.pos u hu e he)⟩
  obtain ⟨co, h1, h2⟩ := coarsenLoop_ok hconv hb ho.coarse c.g.n 0 (.init c.g buckets start cap cl ilocked imax)
    ⟨rfl, rfl, rfl, trivial, hg, hcap, rfl, rfl, (fun h => by cases h), fun _ => rfl⟩ (le_refl _)
  have htop : co.current = top c.g co.levels := by
    unfold Coarsener.current top
    cases co.levels with
    | nil => exact h2.finest
    | cons x l => rfl
  have hproj := InitialCoarsening.C54_projection mc.maxCluster c.g hg.wf hg.symm co.levels h2.hier
  have hfeas : ∀ q, Feasible c.g c.maxW (projectAll co.levels q) ↔ Feasible co.current c.maxW q := by
    intro q
    have h0 : blockW c.g (projectAll co.levels q) 0 = blockW (top c.g co.levels) q 0 := (hproj q).2 0
    have h1 : blockW c.g (projectAll co.levels q) 1 = blockW (top c.g co.levels) q 1 := (hproj q).2 1
    unfold Feasible
    rw [htop, h0, h1]
  have hpc : ∀ q, c.g.cut (projectAll co.levels q) = co.current.cut q := fun q => by rw [htop]; exact (hproj q).1
  have hvc : InitialFM.Valid co.current := by rw [htop]; exact hierarchy_valid hv _ h2.hier
  obtain ⟨p, h3, h4, h5, h6⟩ := C57_pool { c with g := co.current } hvc mc.pool rd cap inf h2.room hinf
    (fun q => by rw [← hpc]; exact hcut _) mc.repetitions (o.pool co.current.n) (ho.pool _ h2.valid.nonempty) cur best winner
  have hne := runs_nonempty hk hr ha h5
  obtain ⟨h7, h8⟩ := h6 hne
  have hbest : Bipartition co.current p.best.part p.best.bw := (h4 _ h7).1
  obtain ⟨s, h9, h10, h11, h12⟩ : ∃ s, (if mc.refinePool then refineWith? { c with g := co.current } mc.refine (o.poolFm co.current.n) p.best
      else some p.best) = some s ∧ Bipartition co.current s.part s.bw ∧ co.current.cut s.part ≤ co.current.cut p.best.part ∧
      over co.current c.maxW s.part ≤ over co.current c.maxW p.best.part := by
    by_cases hrp : mc.refinePool = true
    · rw [if_pos hrp]
      exact refineWith_ok (c := { c with g := co.current }) hvc mc.refine (ho.poolFm _) hbest
    · rw [if_neg hrp]
      exact ⟨_, rfl, hbest, le_refl _, le_refl _⟩
  obtain ⟨s', h13, h14, h15, h16⟩ := uncoarsen_ok (c := c) (mc := mc) hv ho.fm co.levels s h2.hier (by rw [← htop]; exact h10)
  rw [← htop] at h15 h16
  have hle : c.g.cut s'.part ≤ co.current.cut p.best.part := h15.trans h11
  have hov : Feasible co.current c.maxW p.best.part → Feasible c.g c.maxW s'.part := by
    intro hf
    rw [over_feasible] at hf ⊢
    have : 0 ≤ over c.g c.maxW s'.part := by unfold over; omega
    omega
  refine ⟨⟨s', co.levels, p⟩, ?_, h14, h2.hier, hne, fun x hx => ?_, fun x hx => ⟨fun hf => ?_, fun hno => ?_⟩⟩
  · unfold partition?
    simp only [h1, Option.bind_eq_bind, Option.bind_some, h3, h9, h13]
  · rw [← htop]; exact (h4 x hx).1
  · have hx' := (hfeas _).1 hf
    have hb' := (h8 x hx).feasible hx'
    exact ⟨hov hb', by rw [hpc]; exact hle.trans ((h8 x hx).cut ⟨fun _ => hx', fun _ => hb'⟩)⟩
  · rw [hpc]
    refine hle.trans ((h8 x hx).cut ⟨fun hf => absurd ((hfeas _).2 hf) (hno _ h7), fun hf => absurd ((hfeas _).2 hf) (hno x hx)⟩)

/-! ## Example -/

def exFm (n : Nat) : InitialFM.Oracle where
  chunks := List.range (n / InitialFM.chunkSize + 1)
  perm := fun _ => List.range InitialFM.chunkSize
  choice := fun _ => ⟨false, false, 0⟩
  abort := false

def exRun (n r i : Nat) : RunOracle where
  flat := { seeds := [((r + i) % n, true)], draw := fun t j => (r + i + t + j) % n, tie := fun _ => 0, coin := fun u => u % 2 = 0 }
  fm := fun _ => exFm n
  likely := true

def exO : MlOracle where
  coarse := fun _ => InitialCoarsening.exOracle
  pool := exRun
  poolFm := fun n _ => exFm n
  fm := fun n _ _ => exFm n

def exC : Cfg := { g := InitialCoarsening.exG, maxW := fun _ => 4, perfect := fun _ => 3, iterations := 3, maxKey := 1000 }
def exPool : PoolCfg where
  kinds := register true true true
  minRep := 2
  maxRep := 5
  minNonAdaptive := 1
  adaptive := true
  refine := true
  iterations := 2
def exMc : MlCfg where
  bits := 30
  conv := fun cn n => decide (n - cn = 0)
  limit := 3
  maxCluster := 2
  pool := exPool
  repetitions := 1
  refinePool := true
  refine := true
def exOld : Bip := ⟨fun _ => 7, fun _ => 9⟩

theorem exFm_ok (n : Nat) : (exFm n).Ok n := ⟨.refl _, fun _ => .refl _⟩
theorem exRun_ok (n r i : Nat) (hn : 0 < n) : (exRun n r i).Ok n :=
  ⟨⟨fun x hx => by rcases List.mem_singleton.1 hx with rfl; exact Nat.mod_lt _ hn, fun _ _ => Nat.mod_lt _ hn⟩, fun _ => exFm_ok n⟩

theorem exO_ok : exO.Ok 1 (fun b => if b = 0 then 0 else exC.g.n) :=
  ⟨fun _ => InitialCoarsening.exOk, fun n hn r i => exRun_ok n r i hn, fun n _ => exFm_ok n, fun n _ _ => exFm_ok n⟩

theorem cut_le {g : Graph} (h : ∀ u, u < g.n → ∀ e ∈ g.adj u, 0 ≤ e.2) (q : Nat → Nat) :
    g.cut q ≤ ∑ u ∈ range g.n, ∑ v ∈ range u, g.wt u v := by
  unfold Graph.cut
  refine Finset.sum_le_sum fun u hu => Finset.sum_le_sum fun v _ => ?_
  split
  · exact le_refl _
  · exact wt_nonneg (h u (mem_range.1 hu))

theorem exCut (q : Nat → Nat) : exC.g.cut q < exC.maxKey := by
  refine lt_of_le_of_lt (cut_le (fun u hu e he => le_of_lt (InitialCoarsening.exG_valid.pos u hu e he)) q) ?_
  decide

/-- The hypotheses of `C57_multilevel` and `C57_pool` hold for the example. -/
example := C57_multilevel exC exMc id InitialCoarsening.exG_valid (by decide) exCut (fun n => by simp [exMc]) (by decide) (by decide)
  (Or.inl (by decide)) 8 100 (by decide) (by decide) 1 _ InitialCoarsening.exBuckets exO exO_ok InitialCoarsening.exStale true 0 exOld exOld 0

/-- Two repetitions without selection; all seven bipartitioners are run twice, and the best cut has weight 2. -/
example : ((pool? exC { exPool with adaptive := false, refine := false } id 8 100 1 (exRun 6) (.init 1000 exOld exOld 0)).map fun p =>
    ((List.range 6).map p.best.part, (List.range 7).map (fun i => runsOf i p.runs), p.bestCut)) =
    some ([0, 0, 0, 0, 1, 1], [2, 2, 2, 2, 2, 2, 2], 2) := by decide +kernel

/-- Without repetitions that are always done, the pool returns the old contents of the memory. -/
example : ((pool? exC { exPool with minNonAdaptive := 0 } id 8 100 4 (exRun 6) (.init 1000 exOld exOld 0)).map fun p =>
    (List.range 6).map p.best.part) = some [7, 7, 7, 7, 7, 7] := by decide +kernel

end Verif.InitialPool
