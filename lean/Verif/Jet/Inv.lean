import Verif.Jet.Find

namespace Verif.Jet
open Verif.Partitioned (Op weightOf replay)
open Verif.Gains (Move applyMoves ValidMoves)
open Verif.SparseGains (Layout Interleaved Sorted)
open Finset (range mem_range)

/-- What is assumed of the input: an undirected graph with positive edge and non-negative node weights, at least two blocks;
degree buckets that match the graph; the weighted degrees fit into the words and the entries of the gain cache (as in
`C35_sparse`). -/
structure Ok (c : Cfg) : Prop where
  wf : c.g.WF
  symm : c.g.Symm
  pos : ∀ u, u < c.g.n → ∀ e ∈ c.g.adj u, 0 < e.2
  nodes : ∀ u, 0 ≤ c.g.w u
  k2 : 2 ≤ c.k
  k32 : c.k < 2 ^ 32
  buckets : c.sorted = true → Sorted c.g.n (fun u => (c.g.adj u).length) c.bsize c.nb
  fit : ∀ u, u < c.g.n → SparseGains.wdegOf c.g u < 2 ^ (c.W - 1)
  fitTab : ∃ bits, c.k ≤ 2 ^ bits ∧ (∀ j, c.k ≤ 2 ^ j → bits ≤ j) ∧ bits ≤ c.W ∧
    ∀ u, u < c.g.n → (c.g.adj u).length < 2 * c.threshold → SparseGains.wdegOf c.g u < 2 ^ (c.W - bits)

/-- The gain cache was initialised for some partition and has seen the moves to the current one. -/
structure CacheOk (c : Cfg) (part : Nat → Option Nat) (L : Layout) (gc : SparseGains.St) : Prop where
  ex : ∃ (p : Nat → Nat) (oldOff : Nat → Nat) (old gc0 : SparseGains.St) (order : List Nat) (ms : List Move) (evs : List SparseGains.Step),
    (∀ u, u < c.g.n → p u < c.k) ∧ order.Perm (List.range c.g.n) ∧
    SparseGains.init? c.W c.k c.threshold c.sorted c.bsize c.nb oldOff old c.g p order = some (L, gc0) ∧
    ValidMoves c.g.n c.k p ms ∧ Interleaved c.g ms evs ∧ evs.foldlM (SparseGains.step? c.g L) gc0.cache = some gc.cache ∧
    gc = { gc0 with cache := gc.cache } ∧ ∀ u, u < c.g.n → blk part u = applyMoves p ms u

theorem CacheOk.exact {c : Cfg} (ok : Ok c) {part : Nat → Option Nat} {L : Layout} {gc : SparseGains.St} (h : CacheOk c part L gc) :
    Exact c (blk part) L gc := by
  obtain ⟨p, oldOff, old, gc0, order, ms, evs, h1, h2, h3, h4, h5, h6, h7, h8⟩ := h.ex
  obtain ⟨bits, b1, b2, b3, b4⟩ := ok.fitTab
  obtain ⟨L', s', e1, _, e2⟩ := SparseGains.C35_sparse c.g ok.wf ok.symm ok.pos c.W c.k c.threshold ok.k2 ok.k32 c.sorted c.bsize c.nb
    ok.buckets bits b1 b2 b3 ok.fit b4 p h1 oldOff old order h2
  rw [h3] at e1
  cases e1
  obtain ⟨cache, e3, e4⟩ := e2 ms evs h4 h5
  rw [h6] at e3
  cases e3
  have key := e4 _ rfl
  rw [h7]
  refine ⟨fun u hu b hb => ?_, fun u hu a b ha hb => ?_, fun u hu => ?_⟩
  · rw [(key u hu).1 b hb, conn_congr' ok.wf h8 hu]
  · rw [(key u hu).2.1 a b ha hb, conn_congr' ok.wf h8 hu, conn_congr' ok.wf h8 hu]
  · obtain ⟨r, q1, q2⟩ := (key u hu).2.2.2
    rw [h8 u hu]
    refine ⟨r, q1, q2.trans ⟨?_, ?_⟩⟩
    · rintro ⟨e, he, hne⟩
      exact ⟨e, he, by rw [h8 _ (ok.wf u hu e he)]; exact hne⟩
    · rintro ⟨e, he, hne⟩
      exact ⟨e, he, by rw [← h8 _ (ok.wf u hu e he)]; exact hne⟩

/-- Further moves. -/
theorem CacheOk.moves {c : Cfg} {part part' : Nat → Option Nat} {L : Layout} {gc : SparseGains.St} (h : CacheOk c part L gc)
    {ms : List Move} {evs : List SparseGains.Step} {cache : Nat → Nat} (hv : ValidMoves c.g.n c.k (blk part) ms) (hi : Interleaved c.g ms evs)
    (hc : evs.foldlM (SparseGains.step? c.g L) gc.cache = some cache)
    (hp : ∀ u, u < c.g.n → blk part' u = applyMoves (blk part) ms u) : CacheOk c part' L { gc with cache := cache } := by
  obtain ⟨p, oldOff, old, gc0, order, ms0, evs0, h1, h2, h3, h4, h5, h6, h7, h8⟩ := h.ex
  have h9 := validMoves_congr ms _ _ h8 hv
  refine ⟨p, oldOff, old, gc0, order, ms0 ++ ms, evs0 ++ evs, h1, h2, h3, (validMoves_append ..).2 ⟨h4, h9.1⟩, interleaved_append h5 hi, ?_, ?_, ?_⟩
  · rw [List.foldlM_append, h6]; exact hc
  · rw [h7]
  · intro u hu
    rw [hp u hu, applyMoves_append, h9.2 u hu]

theorem CacheOk.init {c : Cfg} {part : Nat → Option Nat} {bw : Nat → Int} (hv : Valid c part bw) {oldOff : Nat → Nat} {old : SparseGains.St} {L : Layout}
    {gc : SparseGains.St} (h : InitCache c part oldOff old L gc) : CacheOk c part L gc := by
  obtain ⟨order, h1, h2⟩ := h
  exact ⟨blk part, oldOff, old, gc, order, [], [], fun u hu => hv.blk_lt hu, h1, h2, trivial, interleaved_nil _, rfl, rfl, fun _ _ => rfl⟩

/-- Gains fit into the numbers. -/
theorem gain_fit {c : Cfg} (ok : Ok c) (p : Nat → Nat) {u : Nat} (hu : u < c.g.n) (b : Nat) : -2 ^ (c.W - 1) < gainTo c.g p u b := by
  have h1 := Gains.conn_nonneg c.g p u b (ok.pos u hu)
  have h2 := SparseGains.conn_le_wdeg (ok.pos u hu) p (p u)
  have h3 := ok.fit u hu
  unfold gainTo
  omega

theorem EdgeCut.eq {c : Cfg} (ok : Ok c) {part : Nat → Option Nat} {cut : Int} (h : EdgeCut c part cut) : cut = c.g.cut (blk part) := by
  obtain ⟨T, chunks, h1, h2, h3⟩ := h
  rw [Metrics.C19_edge_cut_parallel c.g ok.wf ok.symm _ T chunks h1 h2] at h3
  exact (Option.some.inj h3).symm

/-- The result of a run of the balancer. -/
theorem balance_ok {c : Cfg} (ok : Ok c) {b b' : Balancer.State} {part : Nat → Option Nat} {bw : Nat → Int} (hb : b.core = quiet part bw)
    (hv : Valid c part bw) (hs : Balancer.Start c.balancer b) (hr : Balancer.Run c.balancer b b') :
    Valid c b'.core.part b'.core.bw ∧ ValidMoves c.g.n c.k (blk part) (movesOf b'.core.hist) ∧
      (∀ u, u < c.g.n → blk b'.core.part u = applyMoves (blk part) (movesOf b'.core.hist) u) ∧
      ((∀ x, x < c.k → 0 ≤ c.maxW x) → ∀ x, x < c.k → weightOf c.g.n c.g.w b'.core.part x ≤ c.maxW x) := by
  have h1 := (Balancer.C41_result c.balancer ok.wf ok.nodes b b' hs hr).1
  have hreach : Balancer.Reach c.balancer b b' := by
    unfold Balancer.Run at hr
    split at hr
    · rw [hr]; exact .refl _
    · exact hr.1
  have hpr := (Balancer.Inv.of_reach ok.wf ok.nodes hs hreach).reach
  obtain ⟨m1, m2, _⟩ := moves_valid (by exact fun _ _ h => h) hs.core hs.assigned hpr
  have hbp : b.core.part = part := by rw [hb]; rfl
  rw [hbp] at m1 m2
  have hlt := Gains.applyMoves_lt m1 fun u hu => hv.blk_lt hu
  refine ⟨⟨fun u hu => ⟨_, m2 u hu, hlt u hu⟩, h1⟩, m1, fun u hu => ?_, fun hm => (Balancer.C41_returns_balanced c.balancer ok.wf ok.nodes hm b b' hs hr).2⟩
  show (b'.core.part u).getD 0 = _
  rw [m2 u hu]
  rfl

/-- Where the partition is known to be the best one. -/
def Here (s : St) : Prop :=
  match s.ctrl with
  | .round _ | .done => True
  | .rollback _ => s.lastBest = true
  | .iter .. => False

/-- The number of iterations that were possible so far. -/
def budget (c : Cfg) : Ctrl → Nat
  | .round r => r * limit c.iterations
  | .iter r i _ => r * limit c.iterations + i
  | .rollback r => (r + 1) * limit c.iterations
  | .done => c.rounds * limit c.iterations

/-- The loop counters are in range. -/
def CtrlOk (c : Cfg) : Ctrl → Prop
  | .round r => r ≤ c.rounds
  | .iter r i _ => r < c.rounds ∧ i < limit c.iterations
  | .rollback r => r < c.rounds
  | .done => True

structure Inv (c : Cfg) (p0 : Nat → Nat) (s : St) : Prop where
  valid : Valid c s.part s.bw
  cache : CacheOk c s.part s.L s.gc
  bestLt : ∀ u, u < c.g.n → s.best u < c.k
  bestCut : s.bestCut = c.g.cut s.best
  bestMem : ∃ p ∈ p0 :: s.seen, ∀ u, u < c.g.n → s.best u = p u
  bestMin : ∀ p ∈ p0 :: s.seen, s.bestCut ≤ c.g.cut p
  here : Here s → ∀ u, u < c.g.n → blk s.part u = s.best u
  balanced : (∀ b, b < c.k → 0 ≤ c.maxW b) → ∀ p ∈ s.seen, ∀ b, b < c.k → weightOf c.g.n c.g.w (fun u => some (p u)) b ≤ c.maxW b
  ctrl : CtrlOk c s.ctrl
  count : s.seen.length ≤ budget c s.ctrl

theorem limit_pos (x : Nat) : 0 < limit x := by
  unfold limit
  split
  · decide
  · omega

theorem Start.inv {c : Cfg} (ok : Ok c) {part : Nat → Option Nat} {bw : Nat → Int} (hv : Valid c part bw) {s : St} (h : Start c part bw s) :
    Inv c (blk part) s := by
  obtain ⟨oldOff, old, hc⟩ := h.cache
  refine ⟨by rw [h.isPart, h.isBw]; exact hv, by rw [h.isPart]; exact CacheOk.init hv hc, fun u hu => by rw [h.best u hu]; exact hv.blk_lt hu, ?_, ?_, ?_, ?_, ?_, ?_, ?_⟩
  · rw [h.cut.eq ok]; exact cut_congr fun u hu => (h.best u hu).symm
  · exact ⟨_, List.mem_cons_self, h.best⟩
  · intro p hp
    rw [h.seen, List.mem_singleton] at hp
    rw [hp, h.cut.eq ok]
  · intro _ u hu
    rw [h.isPart, h.best u hu]
  · intro _ p hp
    rw [h.seen] at hp
    cases hp
  · rw [h.ctrl]; exact Nat.zero_le _
  · rw [h.seen]; exact Nat.zero_le _

theorem Inv.next_lt {c : Cfg} (ok : Ok c) {p0 : Nat → Nat} {s : St} (h : Inv c p0 s) {r : Nat} {u x : Nat} (hu : u < c.g.n)
    (hx : findMove? c r s u = some x) : x < c.k := by
  obtain ⟨y, h1, h2⟩ := find_ok (r := r) (h.cache.exact ok) hu (h.valid.blk_lt hu) ok.k2 fun b _ => gain_fit ok _ hu b
  rw [hx] at h1
  cases h1
  exact h2.1

theorem nextCtrl_cases (c : Cfg) (best cut : Int) (r i f : Nat) :
    (∃ f', nextCtrl c best cut r i f = .iter r (i + 1) f' ∧ i + 1 < limit c.iterations) ∨ nextCtrl c best cut r i f = .rollback r := by
  unfold nextCtrl
  simp only
  generalize (if c.improved best cut = true then 0 else f + 1) = f'
  by_cases h : i + 1 < limit c.iterations ∧ f' < limit c.fruitless
  · rw [if_pos h]; exact Or.inl ⟨_, rfl, h.1⟩
  · rw [if_neg h]; exact Or.inr rfl

theorem Inv.iter {c : Cfg} (ok : Ok c) {p0 : Nat → Nat} {s s' : St} (h : Inv c p0 s) {r i f : Nat} (hctrl : s.ctrl = .iter r i f)
    (hi : Iter c r i f s s') : Inv c p0 s' := by
  cases hi with
  | mk next lock p evs cache b b' evs' cache' cut hnext hlock hexec hevs hcache hb hstart hrun hevs' hcache' hcut =>
    have hn := fun u hu => h.next_lt ok hu (hnext u hu)
    have hnd : (locked c lock).Nodup := List.nodup_range.filter _
    have hlt : ∀ u ∈ locked c lock, u < c.g.n := fun u hu => List.mem_range.1 (List.mem_filter.1 hu).1
    obtain ⟨hv1, hp1⟩ := exec_sets h.valid hnd (fun u hu hlt => hn u hlt) hexec
    have hvd := valid_distinct (n := c.g.n) (k := c.k) (f := blk s.part) (t := next) (locked c lock) (blk s.part) hnd
      fun u hu => ⟨hlt u hu, hn u (hlt u hu), rfl⟩
    have hc1 : CacheOk c p.part s.L { s.gc with cache := cache } := h.cache.moves hvd.1 hevs hcache fun u hu => by
      have h1 := hvd.2 u
      rw [h1]
      unfold blk
      rw [hp1 u]
      split <;> rfl
    obtain ⟨hv2, hm2, hp2, hbal⟩ := balance_ok ok hb hv1 hstart hrun
    have hc2 := hc1.moves hm2 hevs' hcache' hp2
    have hcut := hcut.eq ok
    have hcl := h.ctrl
    rw [hctrl] at hcl
    have hcount := h.count
    rw [hctrl] at hcount
    have hcount : s.seen.length ≤ r * limit c.iterations + i := hcount
    unfold St.finish
    refine ⟨hv2, hc2, ?_, ?_, ?_, ?_, ?_, ?_, ?_, ?_⟩
    · intro u hu
      show (if cut ≤ s.bestCut then blk b'.core.part else s.best) u < _
      split
      · exact hv2.blk_lt hu
      · exact h.bestLt u hu
    · show (if _ then _ else _) = c.g.cut (if _ then _ else _)
      have := h.bestCut
      by_cases h1 : cut ≤ s.bestCut
      · rw [if_pos h1]
        split <;> omega
      · rw [if_neg h1, if_neg (by omega)]
        exact this
    · show ∃ p ∈ p0 :: (s.seen ++ [_]), ∀ u, _ → (if cut ≤ s.bestCut then blk b'.core.part else s.best) u = p u
      split
      · exact ⟨_, by simp, fun _ _ => rfl⟩
      · obtain ⟨q, hq, he⟩ := h.bestMem
        refine ⟨q, ?_, he⟩
        rcases List.mem_cons.1 hq with e | e
        · exact List.mem_cons.2 (Or.inl e)
        · exact List.mem_cons.2 (Or.inr (List.mem_append_left _ e))
    · intro q hq
      show (if _ then _ else _) ≤ _
      have hq : q ∈ p0 :: s.seen ∨ q = blk b'.core.part := by
        rcases List.mem_cons.1 hq with e | e
        · exact Or.inl (List.mem_cons.2 (Or.inl e))
        · rcases List.mem_append.1 e with e | e
          · exact Or.inl (List.mem_cons.2 (Or.inr e))
          · exact Or.inr (List.mem_singleton.1 e)
      rcases hq with hq | rfl
      · have := h.bestMin q hq
        split <;> omega
      · split <;> omega
    · intro hh u hu
      have hh : (if cut ≤ s.bestCut then true else false) = true := by
        unfold Here at hh
        rcases nextCtrl_cases c s.bestCut cut r i f with ⟨f', e, _⟩ | e
        · simp only [e] at hh
        · simp only [e] at hh
          exact hh
      show blk b'.core.part u = (if cut ≤ s.bestCut then blk b'.core.part else s.best) u
      by_cases h1 : cut ≤ s.bestCut
      · rw [if_pos h1]
      · rw [if_neg h1] at hh; cases hh
    · intro hm q hq x hx
      rcases List.mem_append.1 hq with e | e
      · exact h.balanced hm q e x hx
      · rw [List.mem_singleton] at e
        subst e
        have := hbal hm x hx
        rw [weightOf_congr (fun u hu => (hv2.some hu).symm)]
        exact this
    · show CtrlOk c (nextCtrl ..)
      rcases nextCtrl_cases c s.bestCut cut r i f with ⟨f', e, hl⟩ | e <;> rw [e]
      · exact ⟨hcl.1, hl⟩
      · exact hcl.1
    · show (s.seen ++ [_]).length ≤ budget c (nextCtrl ..)
      rw [List.length_append, List.length_singleton]
      rcases nextCtrl_cases c s.bestCut cut r i f with ⟨f', e, hl⟩ | e <;> rw [e]
      · show _ ≤ r * limit c.iterations + (i + 1)
        omega
      · show _ ≤ (r + 1) * limit c.iterations
        have := hcl.2
        rw [Nat.add_mul]
        omega

theorem Inv.step {c : Cfg} (ok : Ok c) {p0 : Nat → Nat} {s s' : St} (h : Inv c p0 s) (hs : Step c s s') : Inv c p0 s' := by
  have hcount := h.count
  have hcl := h.ctrl
  have hhere := h.here
  cases hs with
  | enter r hctrl hr =>
    rw [hctrl] at hcount
    exact ⟨h.valid, h.cache, h.bestLt, h.bestCut, h.bestMem, h.bestMin, fun hh => hh.elim, h.balanced, ⟨hr, limit_pos _⟩, hcount⟩
  | leave r hctrl hr =>
    rw [hctrl] at hcount hcl
    have hcl : r ≤ c.rounds := hcl
    have : r = c.rounds := by omega
    refine ⟨h.valid, h.cache, h.bestLt, h.bestCut, h.bestMem, h.bestMin, fun _ => hhere ?_, h.balanced, trivial, ?_⟩
    · unfold Here; rw [hctrl]; trivial
    · rw [this] at hcount; exact hcount
  | iter _ r i f hctrl hi => exact h.iter ok hctrl hi
  | keep r hctrl hb =>
    rw [hctrl] at hcount hcl
    refine ⟨h.valid, h.cache, h.bestLt, h.bestCut, h.bestMem, h.bestMin, fun _ => hhere ?_, h.balanced, hcl, hcount⟩
    unfold Here; rw [hctrl]; exact hb
  | rollback r p L gc hctrl hb hexec hcache =>
    rw [hctrl] at hcount hcl
    obtain ⟨hv1, hp1⟩ := exec_sets h.valid List.nodup_range (fun u _ hu => h.bestLt u hu) hexec
    refine ⟨hv1, CacheOk.init hv1 hcache, h.bestLt, h.bestCut, h.bestMem, h.bestMin, fun _ u hu => ?_, h.balanced, hcl, hcount⟩
    show (p.part u).getD 0 = _
    rw [hp1 u, if_pos (List.mem_range.2 hu)]
    rfl

theorem Inv.of_reach {c : Cfg} (ok : Ok c) {part : Nat → Option Nat} {bw : Nat → Int} (hv : Valid c part bw) {s0 s : St} (h0 : Start c part bw s0)
    (hr : Reach c s0 s) : Inv c (blk part) s := by
  induction hr with
  | refl => exact h0.inv ok hv
  | step _ hs ih => exact ih.step ok hs

end Verif.Jet
