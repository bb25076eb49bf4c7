import Verif.InitialCoarsening.Level

/-!
# C54: the hierarchy used for initial bipartitioning

`Valid`, `Level`, `Hierarchy`, `Connected`, `BucketsOk` and `Oracle.Ok` are defined in `Spec.lean`, `Contracted` and `blockWeight`
in `Verif/Contraction/Spec.lean`, `Graph.cut` in `Verif/Graph/Basic.lean`.
-/

namespace Verif.InitialCoarsening
open Verif.Maps (FastResetArray)
open Finset
open Verif.Contraction

/-- What holds between calls of `coarsen`. -/
structure CInv (bits : Nat) (M : Int) (g : Graph) (buckets : Nat) (start : Nat → Nat) (cap : Nat) (c : Coarsener) : Prop where
  finest : c.finest = g
  buckets : c.buckets = buckets
  start : c.start = start
  hier : Hierarchy (Level M) g c.levels
  valid : Valid bits c.current
  room : c.current.n ≤ cap
  coll : c.coll = FastResetArray.new cap
  rating : c.st.rating = FastResetArray.new cap
  pre : c.precomputed = true → VC c.current.n c.current.w (Adj c.current) M c.st.cl
  first : c.precomputed = false → c.levels = []

theorem coarsen_ok {bits : Nat} {M : Int} {g : Graph} {buckets : Nat} {start : Nat → Nat} {cap : Nat} {c : Coarsener}
    (hb : BucketsOk g.n buckets start) (h : CInv bits M g buckets start cap c) {max : Int} (hm : max ≤ M) {o : Oracle}
    (ho : o.Ok buckets start) :
    ∃ c', c.coarsen? bits max o = some c' ∧ CInv bits M g buckets start cap c' ∧ c'.precomputed = true ∧
      c'.current.n ≤ c.current.n := by
  have hcur : c.current = top g c.levels := by
    unfold Coarsener.current top
    cases c.levels with
    | nil => exact h.finest
    | cons x l => rfl
  have h1 : ∃ st, c.cluster? bits max o = some st ∧
      VC c.current.n c.current.w (Adj c.current) M st.cl ∧ st.rating = FastResetArray.new cap := by
    unfold Coarsener.cluster?
    by_cases hp : c.precomputed = true
    · rw [if_pos hp]; exact ⟨_, rfl, h.pre hp, h.rating⟩
    · rw [if_neg hp]
      have hn : c.current.n = g.n := by rw [hcur, h.first (by simpa using hp)]; rfl
      rw [h.buckets, h.start]
      obtain ⟨h2, h3⟩ := lpOrder_ok hb ho
      obtain ⟨st, h4, h5, h6⟩ := lp_ok (max := max) (o := o) h.valid.wf h.valid.pos h.valid.small h.room
        (by rw [hn]; exact h3) h2 h.rating
      exact ⟨st, h4, h5.mono hm (fun _ _ h => h), h6⟩
  obtain ⟨st, h2, h3, h4⟩ := h1
  unfold Coarsener.coarsen?
  rw [h2]
  simp only [Option.bind_eq_bind, Option.bind_some]
  by_cases hc : o.converged = true
  · rw [if_pos hc]
    exact ⟨{ c with st, precomputed := true }, rfl,
      ⟨h.finest, h.buckets, h.start, h.hier, h.valid, h.room, h.coll, h4, fun _ => h3, fun h => by cases h⟩, rfl, le_refl _⟩
  · rw [if_neg hc, h.coll]
    obtain ⟨k, mapping, st', h5, h6, h7, h8, h9, h10⟩ := contract_ok (max := max) (coin := o.coin) h.valid h.room o.mem h3 h4
    rw [h5]
    have hn : k.n ≤ c.current.n := by omega
    refine ⟨{ c with levels := (k, mapping) :: c.levels, st := st', coll := FastResetArray.new cap, precomputed := true, imax := max },
      rfl, ⟨h.finest, h.buckets, h.start, ⟨?_, h.hier⟩, h7, hn.trans h.room, rfl, h9, fun _ => h8.mono hm (fun _ _ h => h),
        fun h => by cases h⟩, rfl, hn⟩
    rw [← hcur]; exact h6

theorem coarsen_fold {bits : Nat} {M : Int} {g : Graph} {buckets : Nat} {start : Nat → Nat} {cap : Nat}
    (hb : BucketsOk g.n buckets start) : ∀ (calls : List (Int × Oracle)) (c : Coarsener),
    CInv bits M g buckets start cap c → (∀ x ∈ calls, x.1 ≤ M ∧ x.2.Ok buckets start) →
    ∃ c', calls.foldlM (fun c x => Coarsener.coarsen? bits x.1 x.2 c) c = some c' ∧ CInv bits M g buckets start cap c'
  | [], c, h, _ => ⟨c, rfl, h⟩
  | x :: calls, c, h, hx => by
    obtain ⟨c1, h1, h2, _⟩ := coarsen_ok hb h (hx x List.mem_cons_self).1 (hx x List.mem_cons_self).2
    obtain ⟨c2, h3, h4⟩ := coarsen_fold hb calls c1 h2 fun y hy => hx y (List.mem_cons_of_mem _ hy)
    exact ⟨c2, by rw [List.foldlM_cons, h1]; exact h3, h4⟩

/-- **C54**, coarsening.  For every graph, all random choices, any number of calls of `coarsen` with limits of at most `M`, and
whatever a previous use of the coarsener left behind: no operation is undefined, and every level of the hierarchy is the contraction
of the next finer graph by connected clusters that are single nodes or have weight at most `M`. -/
theorem C54_hierarchy (bits : Nat) (M : Int) (g : Graph) (hg : Valid bits g) (buckets : Nat) (start : Nat → Nat)
    (hb : BucketsOk g.n buckets start) (cap : Nat) (hcap : g.n ≤ cap) (cl : Clus) (ilocked : Bool) (imax : Int)
    (calls : List (Int × Oracle)) (hcalls : ∀ x ∈ calls, x.1 ≤ M ∧ x.2.Ok buckets start) :
    ∃ c, calls.foldlM (fun c x => Coarsener.coarsen? bits x.1 x.2 c) (Coarsener.init g buckets start cap cl ilocked imax) =
      some c ∧ Hierarchy (Level M) g c.levels ∧ c.current = top g c.levels := by
  obtain ⟨c, h1, h2⟩ := coarsen_fold (bits := bits) (M := M) (cap := cap) hb calls _
    (show CInv bits M g buckets start cap (Coarsener.init g buckets start cap cl ilocked imax) from
      ⟨rfl, rfl, rfl, trivial, hg, hcap, rfl, rfl, (fun h => by cases h), fun _ => rfl⟩) hcalls
  refine ⟨c, h1, h2.hier, ?_⟩
  unfold Coarsener.current top
  cases c.levels with
  | nil => exact h2.finest
  | cons x l => rfl

/-- **C54**, one call.  If coarsening has not converged, one level is added; otherwise the hierarchy stays as it is. -/
theorem C54_call (bits : Nat) (M : Int) (g : Graph) (hg : Valid bits g) (buckets : Nat) (start : Nat → Nat)
    (hb : BucketsOk g.n buckets start) (cap : Nat) (hcap : g.n ≤ cap) (cl : Clus) (ilocked : Bool) (imax : Int)
    (calls : List (Int × Oracle)) (hcalls : ∀ x ∈ calls, x.1 ≤ M ∧ x.2.Ok buckets start) (max : Int) (hm : max ≤ M) (o : Oracle)
    (ho : o.Ok buckets start) :
    ∃ c c', calls.foldlM (fun c x => Coarsener.coarsen? bits x.1 x.2 c) (Coarsener.init g buckets start cap cl ilocked imax) =
      some c ∧ c.coarsen? bits max o = some c' ∧
      (o.converged = true → c'.levels = c.levels) ∧
      (o.converged = false → ∃ x, c'.levels = x :: c.levels ∧ Level M c.current x.2 x.1 ∧ x.1.n ≤ c.current.n) := by
  obtain ⟨c, h1, h2⟩ := coarsen_fold (bits := bits) (M := M) (cap := cap) hb calls _
    (show CInv bits M g buckets start cap (Coarsener.init g buckets start cap cl ilocked imax) from
      ⟨rfl, rfl, rfl, trivial, hg, hcap, rfl, rfl, (fun h => by cases h), fun _ => rfl⟩) hcalls
  obtain ⟨c', h3, h4, _, h6⟩ := coarsen_ok hb h2 hm ho
  refine ⟨c, c', h1, h3, ?_, ?_⟩
  · intro hc
    unfold Coarsener.coarsen? at h3
    simp only [Option.bind_eq_bind] at h3
    obtain ⟨st, _, h5⟩ := Option.bind_eq_some_iff.1 h3
    rw [if_pos hc] at h5
    cases h5; rfl
  · intro hc
    have hl : ∃ x, c'.levels = x :: c.levels := by
      unfold Coarsener.coarsen? at h3
      simp only [Option.bind_eq_bind] at h3
      obtain ⟨st, _, h5⟩ := Option.bind_eq_some_iff.1 h3
      rw [if_neg (by rw [hc]; decide)] at h5
      obtain ⟨r, _, h7⟩ := Option.bind_eq_some_iff.1 h5
      cases h7; exact ⟨_, rfl⟩
    obtain ⟨⟨k, mapping⟩, hx⟩ := hl
    have hcur : c.current = top g c.levels := by
      unfold Coarsener.current top
      cases c.levels with
      | nil => exact h2.finest
      | cons x l => rfl
    have h7 := h4.hier
    rw [hx] at h7
    refine ⟨_, hx, ?_, ?_⟩
    · rw [hcur]; exact h7.1
    · have : c'.current = k := by unfold Coarsener.current; rw [hx]
      rw [this] at h6; exact h6

/-- A hierarchy keeps the graph valid. -/
theorem hierarchy_top {M : Int} {g : Graph} (hw : g.WF) (hs : g.Symm) : ∀ (levels : List (Graph × (Nat → Nat))),
    Hierarchy (Level M) g levels → (top g levels).WF ∧ (top g levels).Symm
  | [], _ => ⟨hw, hs⟩
  | (k, m) :: levels, h => by
    obtain ⟨h1, h2⟩ := hierarchy_top hw hs levels h.2
    exact ⟨h.1.contracted.wf, h.1.contracted.symm h1 h2⟩

theorem projectAll_comp : ∀ (levels : List (Graph × (Nat → Nat))) (part : Nat → Nat) (u : Nat),
    projectAll levels part u = part (projectAll levels id u)
  | [], _, _ => rfl
  | (_, m) :: levels, part, u => by
    show projectAll levels (project m part) u = part (projectAll levels (project m id) u)
    rw [projectAll_comp levels (project m part), projectAll_comp levels (project m id)]; rfl

/-- **C54**, projection.  A partition of the coarsest graph that is projected to the input graph has the same cut and the same block
weights. -/
theorem C54_projection (M : Int) (g : Graph) (hw : g.WF) (hs : g.Symm) : ∀ (levels : List (Graph × (Nat → Nat))),
    Hierarchy (Level M) g levels → ∀ part : Nat → Nat,
    g.cut (projectAll levels part) = (top g levels).cut part ∧
    ∀ b, blockWeight g (projectAll levels part) b = blockWeight (top g levels) part b
  | [], _, part => ⟨rfl, fun _ => rfl⟩
  | (k, m) :: levels, h, part => by
    obtain ⟨h1, h2⟩ := C54_projection M g hw hs levels h.2 (project m part)
    obtain ⟨h3, h4⟩ := hierarchy_top hw hs levels h.2
    constructor
    · show g.cut (projectAll levels (project m part)) = k.cut part
      rw [h1]
      exact h.1.contracted.cut h3 h4 part
    · intro b
      show blockWeight g (projectAll levels (project m part)) b = blockWeight k part b
      rw [h2]
      exact (h.1.contracted.block part b).symm

theorem projectedWeights_eq (g : Graph) (part : Nat → Nat) (b : Nat) : projectedWeights g part b = blockWeight g part b := by
  unfold projectedWeights blockWeight
  have key : ∀ n, ((List.range n).foldl (fun bw u => upd bw (part u) (bw (part u) + g.w u)) fun _ => (0 : Int)) b =
      ∑ u ∈ range n, if part u = b then g.w u else 0 := by
    intro n
    induction n with
    | zero => rfl
    | succ n ih =>
      rw [List.range_succ, List.foldl_append, Finset.sum_range_succ, ← ih]
      simp only [List.foldl_cons, List.foldl_nil]
      by_cases h : part n = b
      · subst h; rw [upd_same, if_pos rfl]
      · rw [upd_ne _ _ (Ne.symm h), if_neg h]; simp
  exact key g.n

/-- **C54**, one level of projection: `pop` computes the block weights of the projected partition, which are those of the coarse
partition, and the cut stays the same. -/
theorem C54_pop (M : Int) (g h : Graph) (hw : g.WF) (hs : g.Symm) (mapping : Nat → Nat) (hl : Level M g mapping h)
    (part : Nat → Nat) :
    (∀ u, u < g.n → project mapping part u = part (mapping u) ∧ mapping u < h.n) ∧
    (∀ b, projectedWeights g (project mapping part) b = blockWeight h part b) ∧
    g.cut (project mapping part) = h.cut part := by
  refine ⟨fun u hu => ⟨rfl, hl.contracted.maps u hu⟩, fun b => ?_, ?_⟩
  · rw [projectedWeights_eq]; exact (hl.contracted.block part b).symm
  · exact hl.contracted.cut hw hs part

/-- **C54**, the coarsest graph and the input graph: let `f u` be the node of the coarsest graph that `u` is in.  All nodes of the
coarsest graph are used, their weights add up, nodes merged into one are connected, and nodes heavier than `M` are single nodes of
the input graph. -/
theorem C54_coarsest (M : Int) (g : Graph) (hw : g.WF) (hs : g.Symm) : ∀ (levels : List (Graph × (Nat → Nat))),
    Hierarchy (Level M) g levels →
    (∀ u, u < g.n → projectAll levels id u < (top g levels).n) ∧
    (∀ c, c < (top g levels).n → ∃ u, u < g.n ∧ projectAll levels id u = c) ∧
    (∀ c, c < (top g levels).n → (top g levels).w c = ∑ u ∈ range g.n, if projectAll levels id u = c then g.w u else 0) ∧
    (∀ u v, u < g.n → v < g.n → projectAll levels id u = projectAll levels id v →
      Connected g (projectAll levels id) u v) ∧
    (∀ u v, u < g.n → v < g.n → projectAll levels id u = projectAll levels id v →
      M < (top g levels).w (projectAll levels id u) → u = v)
  | [], _ => by
    refine ⟨fun u hu => hu, fun c hc => ⟨c, hc, rfl⟩, fun c hc => ?_, fun u v _ _ h => ?_, fun u v _ _ h _ => h⟩
    · show g.w c = ∑ u ∈ range g.n, if u = c then g.w u else 0
      simp [show c < g.n from hc]
    · rw [show u = v from h]; exact .refl
  | (k, m) :: levels, h => by
    obtain ⟨h1, h2, h3, h4, h5⟩ := C54_coarsest M g hw hs levels h.2
    have hf : ∀ u, projectAll ((k, m) :: levels) id u = m (projectAll levels id u) := fun u => projectAll_comp levels _ u
    have htop : top g ((k, m) :: levels) = k := rfl
    have hl := h.1
    refine ⟨?_, ?_, ?_, ?_, ?_⟩
    · intro u hu
      rw [hf, htop]; exact hl.contracted.maps _ (h1 u hu)
    · intro c hc
      obtain ⟨d, hd, rfl⟩ := hl.contracted.onto c hc
      obtain ⟨u, hu, rfl⟩ := h2 d hd
      exact ⟨u, hu, hf u⟩
    · intro c hc
      have := (C54_projection M g hw hs ((k, m) :: levels) h id).2 c
      unfold blockWeight at this
      rw [this, htop]
      simp [show c < k.n from hc]
    · intro u v hu hv huv
      rw [hf, hf] at huv
      -- follow a path in the next finer graph
      have key : ∀ {A B : Nat}, Connected (top g levels) m A B → A < (top g levels).n →
          B < (top g levels).n ∧ m A = m B ∧ ∀ a b, a < g.n → b < g.n → projectAll levels id a = A →
            projectAll levels id b = B → Connected g (projectAll ((k, m) :: levels) id) a b := by
        have hsame : ∀ a b, a < g.n → b < g.n → projectAll levels id a = projectAll levels id b →
            Connected g (projectAll ((k, m) :: levels) id) a b := by
          intro a b ha hb hab
          refine Relation.ReflTransGen.mono (p := fun a b => Adj g a b ∧ projectAll ((k, m) :: levels) id a =
            projectAll ((k, m) :: levels) id b) (fun x y hxy => ⟨hxy.1, ?_⟩) a b (h4 a b ha hb hab)
          rw [hf, hf, hxy.2]
        intro A B hAB hA
        induction hAB with
        | refl => exact ⟨hA, rfl, fun a b ha hb hfa hfb => hsame a b ha hb (hfa.trans hfb.symm)⟩
        | tail _ hbc ih =>
          rename_i B C _
          obtain ⟨hB, hmB, hp⟩ := ih
          obtain ⟨⟨e, he, hec⟩, hmC⟩ := hbc
          have hC : C < (top g levels).n := hec ▸ (hierarchy_top hw hs levels h.2).1 B hB e he
          refine ⟨hC, hmB.trans hmC, fun a c ha hc hfa hfc => ?_⟩
          -- an edge of the coarser graph stands for an edge of the finer one
          have hedge : ∃ x y, x < g.n ∧ y < g.n ∧ Adj g x y ∧ projectAll levels id x = B ∧ projectAll levels id y = C := by
            clear hp hmB hA hsame
            have : ∀ (levels : List (Graph × (Nat → Nat))), Hierarchy (Level M) g levels →
                ∀ B C, B < (top g levels).n → C < (top g levels).n → Adj (top g levels) B C →
                ∃ x y, x < g.n ∧ y < g.n ∧ Adj g x y ∧ projectAll levels id x = B ∧ projectAll levels id y = C := by
              intro levels
              induction levels with
              | nil => intro _ B C hB hC hBC; exact ⟨B, C, hB, hC, hBC, rfl, rfl⟩
              | cons x levels ih =>
                obtain ⟨k, m⟩ := x
                intro hh B C hB hC hBC
                obtain ⟨e, he, hec⟩ := hBC
                have hne : B ≠ C := fun h' => hh.1.contracted.loopless B hB e he (hec.trans h'.symm)
                obtain ⟨x, hx, hxB, e', he', hyC⟩ := (hh.1.contracted.adjacent B C hB hC hne).1
                  (hec ▸ List.mem_map_of_mem he)
                have hy : e'.1 < (top g levels).n := (hierarchy_top hw hs levels hh.2).1 x hx e' he'
                obtain ⟨p, q, hp, hq, hpq, hpx, hqy⟩ := ih hh.2 x e'.1 hx hy ⟨e', he', rfl⟩
                refine ⟨p, q, hp, hq, hpq, ?_, ?_⟩
                · rw [show projectAll ((k, m) :: levels) id p = m (projectAll levels id p) from projectAll_comp levels _ p,
                    hpx, hxB]
                · rw [show projectAll ((k, m) :: levels) id q = m (projectAll levels id q) from projectAll_comp levels _ q,
                    hqy, hyC]
            exact this levels h.2 B C hB hC ⟨e, he, hec⟩
          obtain ⟨x, y, hx, hy, hxy, hfx, hfy⟩ := hedge
          refine ((hp a x ha hx hfa hfx).tail ⟨hxy, ?_⟩).trans (hsame y c hy hc (hfy.trans hfc.symm))
          rw [hf, hf, hfx, hfy, hmC]
      exact (key (hl.connected _ _ (h1 u hu) (h1 v hv) huv) (h1 u hu)).2.2 u v hu hv rfl rfl
    · intro u v hu hv huv hM
      rw [hf, hf] at huv
      rw [hf, htop] at hM
      have he := hl.single _ _ (h1 u hu) (h1 v hv) huv hM
      refine h5 u v hu hv he ?_
      -- the coarse node has the weight of its only node
      have hwt := hl.contracted.weight (m (projectAll levels id u)) (hl.contracted.maps _ (h1 u hu))
      rw [Finset.sum_eq_single (projectAll levels id u)] at hwt
      · rw [if_pos rfl] at hwt; rw [← hwt]; exact hM
      · intro d hd hne
        rw [if_neg]
        intro hmd
        exact hne (hl.single _ _ (mem_range.1 hd) (h1 u hu) hmd (by rw [hmd]; exact hM))
      · intro hn; exact absurd (mem_range.2 (h1 u hu)) hn

/-- **C54**, the choice of the cluster.  A node that has not been joined by others moves to the cluster to which its edges have the
largest total weight among the clusters of its neighbours that have room for it, and stays alone only if none has room. -/
theorem C54_choice (bits : Nat) (max : Int) (coin : Nat → Nat → Bool) (g : Graph) (hg : g.WF)
    (hpos : ∀ u, u < g.n → ∀ e ∈ g.adj u, 0 < e.2) (cap : Nat) (s : St) (hr : s.rating = FastResetArray.new cap)
    (hl : ∀ v, v < g.n → s.cl.leader v < cap) (u : Nat) (hu : u < g.n) (hk : s.cl.locked u = false) (hself : s.cl.leader u = u) :
    ∃ s' best, handle? bits max coin g s u = some s' ∧ (∀ v, s'.cl.leader v = if v = u then best else s.cl.leader v) ∧
      s'.rating = s.rating ∧
      (best ≠ u → s.cl.weight best + g.w u ≤ max ∧ ∃ e ∈ g.adj u, s.cl.leader e.1 = best) ∧
      (∀ e ∈ g.adj u, s.cl.weight (s.cl.leader e.1) + g.w u ≤ max →
        g.conn u (fun v => s.cl.leader v = s.cl.leader e.1) ≤ g.conn u (fun v => s.cl.leader v = best) ∧
        s.cl.weight best + g.w u ≤ max) := by
  unfold handle?
  rw [if_neg (by rw [hk]; decide)]
  obtain ⟨r, h1, h2, h3, h4⟩ := rate_ok (cap := cap) (leader := s.cl.leader) (g.adj u) s.rating []
    (by rw [hr]; exact holds_new cap) (by intro e he; cases he) (by rw [hr]; rfl)
    fun e he => ⟨hpos u hu e he, hl e.1 (hg u hu e he)⟩
  obtain ⟨best, h5, h6, h7⟩ := pick_ok (max := max) (uw := g.w u) (coin := coin u) (cl := s.cl) (u := u) h3 h4
  have htot : ∀ c, total ([] ++ (g.adj u).map fun e => (s.cl.leader e.1, e.2)) c = g.conn u (fun v => s.cl.leader v = c) := by
    intro c
    unfold total Graph.conn
    rw [List.nil_append, sum_filter_map, List.map_map]
    simp [Function.comp_def]
  have hmem : ∀ c, c ∈ (([] : List (Nat × Int)) ++ (g.adj u).map fun e => (s.cl.leader e.1, e.2)).map Prod.fst ↔
      ∃ e ∈ g.adj u, s.cl.leader e.1 = c := by
    intro c; simp
  refine ⟨{ s with cl := join bits s.cl u best (g.w u), rating := FastResetArray.new r.cap }, best,
    by rw [h1]; simp only [Option.bind_eq_bind, Option.bind_some, h5], fun v => ?_, by simp only [h2, hr], fun hb => ?_, fun e he hf => ?_⟩
  · show (join bits s.cl u best (g.w u)).leader v = _
    unfold join
    by_cases hbu : best ≠ u
    · rw [if_pos hbu]; rfl
    · rw [if_neg hbu]
      split
      · rename_i hv
        have : best = u := by simpa using hbu
        rw [hv, this]; exact hself
      · rfl
  · rcases h6 with h6 | ⟨h6, h8⟩
    · exact absurd h6 hb
    · exact ⟨h8, (hmem best).1 h6⟩
  · obtain ⟨h8, h9, h10⟩ := h7 _ ((hmem _).2 ⟨e, he, rfl⟩) hf
    rw [htot, htot] at h10
    exact ⟨h10, h9⟩

/-! ## Examples -/

/-- A path of six nodes of weight 1, with heavy edges between 0 and 1, 2 and 3, 4 and 5. -/
def exG : Graph where
  n := 6
  w := fun _ => 1
  adj := fun u => match u with
    | 0 => [(1, 5)] | 1 => [(0, 5), (2, 1)] | 2 => [(1, 1), (3, 5)] | 3 => [(2, 5), (4, 2)] | 4 => [(3, 2), (5, 5)]
    | 5 => [(4, 5)] | _ => []

def exOracle : Oracle where
  coinLp := fun _ _ => true
  coin := fun _ _ => true
  chunks := fun _ => []
  perm := fun _ _ => List.range chunkSize
  converged := false
  mem := ⟨fun _ => 77, fun _ => 88, fun _ => 99⟩

/-- What a previous use has left in the clustering. -/
def exStale : Clus := ⟨fun _ => true, fun _ => 123, fun _ => 5, 3⟩

def exInit (g : Graph) : Coarsener := Coarsener.init g 1 (fun b => if b = 0 then 0 else g.n) 8 exStale true 0

/-- Two calls yield three and two nodes; the second limit is used for the level after the second. -/
example : (([(4, exOracle), (4, exOracle)] : List (Int × Oracle)).foldlM (fun c x => Coarsener.coarsen? 30 x.1 x.2 c)
    (exInit exG)).map (fun c => c.levels.map fun l => (List.range l.1.n).map fun u => (l.1.w u, l.1.adj u)) =
    some [[(2, [(1, 1)]), (4, [(0, 1)])], [(2, [(1, 1)]), (2, [(0, 1), (2, 2)]), (2, [(1, 2)])]] := by
  decide +kernel

theorem exG_valid : Valid 30 exG := by
  constructor
  · decide
  · unfold Graph.WF; decide
  · intro u v c hu hv
    have hu : u < 6 := hu
    have hv : v < 6 := hv
    have h1 : u = 0 ∨ u = 1 ∨ u = 2 ∨ u = 3 ∨ u = 4 ∨ u = 5 := by omega
    have h2 : v = 0 ∨ v = 1 ∨ v = 2 ∨ v = 3 ∨ v = 4 ∨ v = 5 := by omega
    rcases h1 with rfl | rfl | rfl | rfl | rfl | rfl <;> rcases h2 with rfl | rfl | rfl | rfl | rfl | rfl <;>
      simp [exG, List.count_cons, List.count_nil]
  · decide
  · exact ⟨by decide, by decide, by decide⟩

theorem exOk : exOracle.Ok 1 (fun b => if b = 0 then 0 else exG.n) := by
  refine ⟨fun b hb => ?_, fun b j => ?_⟩
  · have : b = 0 := by omega
    subst this
    show ([] : List Nat).Perm (List.range ((6 - 0) / 256))
    simp
  · simp only [exOracle]
    exact List.Perm.refl _

theorem exBuckets : BucketsOk exG.n 1 (fun b => if b = 0 then 0 else exG.n) := by
  refine ⟨fun b hb => ?_, fun b hb => ?_⟩
  · have : b = 0 := by omega
    subst this; simp
  · split <;> simp

/-- The hypotheses of the theorems hold for this example. -/
example : Valid 30 exG ∧ BucketsOk exG.n 1 (fun b => if b = 0 then 0 else exG.n) ∧ exG.n ≤ 8 ∧
    (∀ x ∈ ([(4, exOracle), (4, exOracle)] : List (Int × Oracle)), x.1 ≤ 4 ∧ x.2.Ok 1 fun b => if b = 0 then 0 else exG.n) ∧
    (∃ levels, Hierarchy (Level 4) exG levels ∧ (top exG levels).n = 2) := by
  have hc : ∀ x ∈ ([(4, exOracle), (4, exOracle)] : List (Int × Oracle)), x.1 ≤ 4 ∧
      x.2.Ok 1 fun b => if b = 0 then 0 else exG.n := by
    intro x hx
    simp only [List.mem_cons, List.not_mem_nil, or_false, or_self] at hx
    subst hx
    exact ⟨by decide, exOk⟩
  refine ⟨exG_valid, exBuckets, by decide, hc, ?_⟩
  obtain ⟨c, h1, h2, h3⟩ := C54_hierarchy 30 4 exG exG_valid 1 _ exBuckets 8 (by decide) exStale true 0 _ hc
  refine ⟨c.levels, h2, ?_⟩
  have h4 : (([(4, exOracle), (4, exOracle)] : List (Int × Oracle)).foldlM (fun c x => Coarsener.coarsen? 30 x.1 x.2 c)
      (exInit exG)).map (fun c => c.current.n) = some 2 := by decide +kernel
  rw [← h3]
  have h5 : (exInit exG) = Coarsener.init exG 1 (fun b => if b = 0 then 0 else exG.n) 8 exStale true 0 := rfl
  rw [h5, h1] at h4
  simpa using h4

/-- The hypotheses of `C54_choice` hold for node 2 after the nodes 0 and 1 were handled. -/
example : ((([0, 1] : List Nat).foldlM (handle? 30 4 exOracle.coinLp exG)
    { (exInit exG).st with cl := reset 30 6 exG.w exStale }).map fun s =>
      (s.cl.locked 2, (List.range 6).map s.cl.leader, (List.range 6).map s.cl.weight, s.rating.used)) =
    some (false, [1, 1, 2, 3, 4, 5], [1, 2, 1, 1, 1, 1], []) := by
  decide +kernel

/-- Node weights of `2^29` and more do not fit into the bit-field of 30 bits: here the heavy node, which is not merged with any
other one, has a negative weight in the coarse graph. -/
theorem C54_not_heavy : ∃ (g : Graph) (o : Oracle) (c : Coarsener), g.n = 3 ∧ g.w 2 = 2 ^ 29 ∧
    Coarsener.coarsen? 30 10 o (exInit g) = some c ∧ c.current.n = 2 ∧ c.current.w 1 = - 2 ^ 29 := by
  have h : ((Coarsener.coarsen? 30 10 exOracle (exInit { n := 3, w := fun u => if u = 2 then 2 ^ 29 else 1
                                                         adj := fun u => match u with
                                                           | 0 => [(1, 1)] | 1 => [(0, 1), (2, 1)] | 2 => [(1, 1)]
                                                           | _ => [] })).map fun c =>
      (c.current.n, c.current.w 1)) = some (2, - 2 ^ 29) := by decide +kernel
  obtain ⟨c, h1, h2⟩ := Option.map_eq_some_iff.1 h
  exact ⟨_, exOracle, c, rfl, rfl, h1, congrArg Prod.fst h2, congrArg Prod.snd h2⟩

/-- With an edge of weight zero, the list of used entries grows while it is traversed. -/
theorem C54_not_zero_weights : ∃ (g : Graph), g.WF ∧ g.Symm ∧ g.n = 2 ∧ Coarsener.coarsen? 30 10 exOracle (exInit g) = none := by
  refine ⟨{ n := 2, w := fun _ => 1, adj := fun u => match u with | 0 => [(1, 0)] | 1 => [(0, 0)] | _ => [] },
    by unfold Graph.WF; decide, ?_, rfl, ?_⟩
  · intro u v c hu hv
    have hu : u < 2 := hu
    have hv : v < 2 := hv
    have h1 : u = 0 ∨ u = 1 := by omega
    have h2 : v = 0 ∨ v = 1 := by omega
    rcases h1 with rfl | rfl <;> rcases h2 with rfl | rfl <;> simp [List.count_cons, List.count_nil]
  · have : ∀ {α : Type} {x : Option α}, (x.map fun _ => ()) = none → x = none := by
      intro α x h; cases x <;> simp_all
    exact this (by decide +kernel)

/-- The clusters contracted by the second call were computed with the limit of the first call: here the second limit is 2, but nodes
of weight 2 were merged. -/
theorem C54_not_own_limit :
    (([(4, exOracle), (2, exOracle)] : List (Int × Oracle)).foldlM (fun c x => Coarsener.coarsen? 30 x.1 x.2 c)
      (exInit exG)).map (fun c => c.levels.map fun l => (List.range l.1.n).map l.1.w) = some [[2, 4], [2, 2, 2]] := by
  decide +kernel

end Verif.InitialCoarsening
