import Verif.Jet.Inv

namespace Verif.Jet
open Verif.Partitioned (Op weightOf replay)
open Verif.Gains (Move applyMoves ValidMoves)
open Verif.SparseGains (Layout Interleaved Sorted moveSteps)
open Finset (range mem_range)

/-! ## Executions exist -/

theorem reach_trans {n k T : Nat} {w : Nat → Int} {A : Op → Prop} {a b d : Partitioned.State} (h : Partitioned.Reach n k T w A a b)
    (h' : Partitioned.Reach n k T w A b d) : Partitioned.Reach n k T w A a d := by
  induction h' with
  | refl => exact h
  | step _ hs ih => exact .step ih hs

theorem upd_idle (t : Nat) (x y : Partitioned.PC) : upd (upd (fun _ => Partitioned.PC.idle) t x) t y = upd (fun _ => .idle) t y := by
  funext i
  by_cases e : i = t
  · rw [e, upd_same, upd_same]
  · rw [upd_ne _ _ e, upd_ne _ _ e, upd_ne _ _ e]

theorem upd_idle' (t : Nat) : upd (fun _ => Partitioned.PC.idle) t .idle = fun _ => .idle := by
  funext i
  by_cases e : i = t
  · rw [e, upd_same]
  · rw [upd_ne _ _ e]

/-- One call of `set_block` by thread 0. -/
theorem set_one {n k T : Nat} (hT : 0 < T) {w : Nat → Int} {A : Op → Prop} {part : Nat → Option Nat} {bw : Nat → Int} {hist : List (Op × Bool)} {u d a : Nat}
    (hu : u < n) (hd : d < k) (ha : part u = some a) (hA : A (.setBlock u d)) :
    ∃ bw', Partitioned.Reach n k T w A ⟨part, bw, fun _ => .idle, hist⟩ ⟨upd part u (some d), bw', fun _ => .idle, hist ++ [(.setBlock u d, true)]⟩ := by
  let s0 : Partitioned.State := ⟨part, bw, fun _ => .idle, hist⟩
  let s1 : Partitioned.State := ⟨part, bw, upd (fun _ => .idle) 0 (.setLoad u d), hist⟩
  let s2 : Partitioned.State := ⟨part, bw, upd (fun _ => .idle) 0 (.setDec u a d), hist⟩
  let s3 : Partitioned.State := ⟨part, upd bw a (bw a - w u), upd (fun _ => .idle) 0 (.setInc u (some a) d), hist⟩
  let bw' := upd (upd bw a (bw a - w u)) d (upd bw a (bw a - w u) d + w u)
  let s4 : Partitioned.State := ⟨part, bw', upd (fun _ => .idle) 0 (.setStore u (some a) d), hist⟩
  have e1 : Partitioned.Step n k T w A s0 s1 := .call s0 0 (.setBlock u d) hT rfl hA ⟨hu, hd⟩ fun _ _ h => (nomatch h)
  have e2 : s1.next w 0 = s2 := by
    have : s1.pc 0 = .setLoad u d := rfl
    unfold Partitioned.State.next
    rw [this]
    simp only
    have h2 : s1.part u = some a := ha
    rw [h2]
    show (⟨part, bw, upd (upd _ 0 _) 0 _, hist⟩ : Partitioned.State) = s2
    rw [upd_idle]
  have e3 : s2.next w 0 = s3 := by
    have : s2.pc 0 = .setDec u a d := rfl
    unfold Partitioned.State.next
    rw [this]
    show (⟨part, _, upd (upd _ 0 _) 0 _, hist⟩ : Partitioned.State) = s3
    rw [upd_idle]
  have e4 : s3.next w 0 = s4 := by
    have : s3.pc 0 = .setInc u (some a) d := rfl
    unfold Partitioned.State.next
    rw [this]
    show (⟨part, _, upd (upd _ 0 _) 0 _, hist⟩ : Partitioned.State) = s4
    rw [upd_idle]
  have e5 : s4.next w 0 = ⟨upd part u (some d), bw', fun _ => .idle, hist ++ [(.setBlock u d, true)]⟩ := by
    have : s4.pc 0 = .setStore u (some a) d := rfl
    unfold Partitioned.State.next
    rw [this]
    show (⟨upd part u (some d), _, upd (upd _ 0 _) 0 _, _⟩ : Partitioned.State) = _
    rw [upd_idle, upd_idle']
  have step : ∀ (s s' : Partitioned.State), s.pc 0 ≠ .idle → s.next w 0 = s' → Partitioned.Step n k T w A s s' := by
    intro s s' h e
    rw [← e]
    exact .next s 0 hT h
  have hne : ∀ x : Partitioned.PC, x ≠ .idle → upd (fun _ => Partitioned.PC.idle) 0 x 0 ≠ .idle := fun x h => by rw [upd_same]; exact h
  exact ⟨bw', .step (.step (.step (.step (.step (.refl _) e1) (step s1 s2 (hne _ (nomatch ·)) e2)) (step s2 s3 (hne _ (nomatch ·)) e3))
    (step s3 s4 (hne _ (nomatch ·)) e4)) (step s4 _ (hne _ (nomatch ·)) e5)⟩

theorem sets_ex {n k T : Nat} (hT : 0 < T) {w : Nat → Int} {A : Op → Prop} {f : Nat → Nat} : ∀ (us : List Nat) (part : Nat → Option Nat) (bw : Nat → Int) (hist : List (Op × Bool)),
    (∀ u, u < n → ∃ a, part u = some a) → (∀ u ∈ us, u < n ∧ f u < k ∧ A (.setBlock u (f u))) →
    ∃ part' bw' hist', Partitioned.Reach n k T w A ⟨part, bw, fun _ => .idle, hist⟩ ⟨part', bw', fun _ => .idle, hist'⟩ ∧
      hist'.map Prod.fst = hist.map Prod.fst ++ setOps us f
  | [], part, bw, hist, _, _ => ⟨part, bw, hist, .refl _, by simp [setOps]⟩
  | u :: us, part, bw, hist, hp, h => by
    have hu := h u List.mem_cons_self
    obtain ⟨a, ha⟩ := hp u hu.1
    obtain ⟨bw1, h1⟩ := set_one hT (w := w) (A := A) (bw := bw) (hist := hist) hu.1 hu.2.1 ha hu.2.2
    obtain ⟨part', bw', hist', h2, h3⟩ := sets_ex hT us (upd part u (some (f u))) bw1 (hist ++ [(.setBlock u (f u), true)]) (fun v hv => by
      by_cases e : v = u
      · rw [e, upd_same]; exact ⟨_, rfl⟩
      · rw [upd_ne _ _ e]; exact hp v hv) fun v hv => h v (List.mem_cons_of_mem _ hv)
    refine ⟨part', bw', hist', reach_trans h1 h2, ?_⟩
    rw [h3]
    simp [setOps]

theorem exec_ex {c : Cfg} (hT : 0 < c.T) {part : Nat → Option Nat} {bw : Nat → Int} (hv : Valid c part bw) {us : List Nat} {f : Nat → Nat}
    (hf : ∀ u ∈ us, u < c.g.n ∧ f u < c.k) : ∃ p, Exec c (setOps us f) (quiet part bw) p := by
  obtain ⟨part', bw', hist', h1, h2⟩ := sets_ex hT (w := c.g.w) (A := (· ∈ setOps us f)) (f := f) us part bw []
    (fun u hu => (hv.assigned u hu).imp fun _ h => h.1) fun u hu => ⟨(hf u hu).1, (hf u hu).2, List.mem_map.2 ⟨u, hu, rfl⟩⟩
  refine ⟨_, h1, fun _ _ => rfl, ?_⟩
  rw [h2]
  exact .refl _

theorem moveSteps_filter (g : Graph) (u v f t : Nat) : (moveSteps g u f t).filter (fun e => e.u = v) = if u = v then moveSteps g u f t else [] := by
  have h : ∀ e ∈ moveSteps g u f t, e.u = u := by
    intro e he
    unfold moveSteps at he
    obtain ⟨i, _, he⟩ := List.mem_flatMap.1 he
    rcases List.mem_cons.1 he with rfl | he
    · rfl
    · rw [List.mem_singleton] at he; subst he; rfl
  by_cases e : u = v
  · rw [if_pos e, List.filter_eq_self]
    intro x hx
    rw [h x hx]
    exact decide_eq_true e
  · rw [if_neg e, List.filter_eq_nil_iff]
    intro x hx
    rw [h x hx]
    simpa using e

theorem evs_ex (g : Graph) : ∀ (ms : List Move), ∃ evs, Interleaved g ms evs
  | [] => ⟨[], interleaved_nil g⟩
  | m :: ms => by
    obtain ⟨evs, h⟩ := evs_ex g ms
    refine ⟨moveSteps g m.node m.from m.to ++ evs, interleaved_append (ms := [m]) (fun u => ?_) h⟩
    rw [moveSteps_filter]
    by_cases e : m.node = u
    · rw [if_pos e, List.filter_cons_of_pos (by simpa using e)]
      simp [e]
    · rw [if_neg e, List.filter_cons_of_neg (by simpa using e)]
      rfl

theorem CacheOk.ex_cache {c : Cfg} (ok : Ok c) {part : Nat → Option Nat} {L : Layout} {gc : SparseGains.St} (h : CacheOk c part L gc)
    {ms : List Move} {evs : List SparseGains.Step} (hv : ValidMoves c.g.n c.k (blk part) ms) (hi : Interleaved c.g ms evs) :
    ∃ cache, evs.foldlM (SparseGains.step? c.g L) gc.cache = some cache := by
  obtain ⟨p, oldOff, old, gc0, order, ms0, evs0, h1, h2, h3, h4, h5, h6, h7, h8⟩ := h.ex
  obtain ⟨bits, b1, b2, b3, b4⟩ := ok.fitTab
  obtain ⟨L', s', e1, _, e2⟩ := SparseGains.C35_sparse c.g ok.wf ok.symm ok.pos c.W c.k c.threshold ok.k2 ok.k32 c.sorted c.bsize c.nb
    ok.buckets bits b1 b2 b3 ok.fit b4 p h1 oldOff old order h2
  rw [h3] at e1
  cases e1
  have h9 := validMoves_congr ms _ _ h8 hv
  obtain ⟨cache, e3, _⟩ := e2 (ms0 ++ ms) (evs0 ++ evs) ((validMoves_append ..).2 ⟨h4, h9.1⟩) (interleaved_append h5 hi)
  rw [List.foldlM_append, h6] at e3
  exact ⟨cache, e3⟩

theorem initCache_ex {c : Cfg} (ok : Ok c) {part : Nat → Option Nat} {bw : Nat → Int} (hv : Valid c part bw) (oldOff : Nat → Nat) (old : SparseGains.St) :
    ∃ L gc, InitCache c part oldOff old L gc := by
  obtain ⟨bits, b1, b2, b3, b4⟩ := ok.fitTab
  obtain ⟨L', s', e1, _⟩ := SparseGains.C35_sparse c.g ok.wf ok.symm ok.pos c.W c.k c.threshold ok.k2 ok.k32 c.sorted c.bsize c.nb
    ok.buckets bits b1 b2 b3 ok.fit b4 (blk part) (fun u hu => hv.blk_lt hu) oldOff old (List.range c.g.n) (.refl _)
  exact ⟨L', s', _, .refl _, e1⟩

theorem edgeCut_ex {c : Cfg} (ok : Ok c) (part : Nat → Option Nat) : EdgeCut c part (c.g.cut (blk part)) := by
  refine ⟨1, [(0, List.range c.g.n)], ?_, ?_, ?_⟩
  · intro x hx
    rw [List.mem_singleton] at hx
    rw [hx]
    exact Nat.one_pos
  · simp
  · refine Metrics.C19_edge_cut_parallel c.g ok.wf ok.symm _ 1 _ ?_ ?_
    · intro x hx
      rw [List.mem_singleton] at hx
      rw [hx]
      exact Nat.one_pos
    · simp

theorem start_ex {c : Cfg} (ok : Ok c) {part : Nat → Option Nat} {bw : Nat → Int} (hv : Valid c part bw) : ∃ s, Start c part bw s := by
  obtain ⟨L, gc, h⟩ := initCache_ex ok hv (fun _ => 0) ⟨fun _ => 0, 0, fun _ => 0⟩
  exact ⟨⟨part, bw, L, gc, fun _ => false, blk part, c.g.cut (blk part), true, .round 0, []⟩, rfl, rfl, ⟨_, _, h⟩, fun _ _ => rfl, fun _ _ => rfl,
    edgeCut_ex ok part, rfl, rfl, rfl⟩

/-- The moves that are found in a state. -/
theorem Inv.find {c : Cfg} (ok : Ok c) {p0 : Nat → Nat} {s : St} (h : Inv c p0 s) (r : Nat) :
    ∃ next : Nat → Nat, ∀ u, u < c.g.n → findMove? c r s u = some (next u) ∧ Chooses c r (blk s.part) (s.lock u) u (next u) := by
  have : ∀ u, ∃ x, u < c.g.n → findMove? c r s u = some x ∧ Chooses c r (blk s.part) (s.lock u) u x := by
    intro u
    by_cases hu : u < c.g.n
    · obtain ⟨x, hx⟩ := find_ok (r := r) (h.cache.exact ok) hu (h.valid.blk_lt hu) ok.k2 fun b _ => gain_fit ok _ hu b
      exact ⟨x, fun _ => hx⟩
    · exact ⟨0, fun h => absurd h hu⟩
  choose next hn using this
  exact ⟨next, hn⟩

theorem Inv.filter {c : Cfg} (ok : Ok c) {p0 : Nat → Nat} {s : St} (h : Inv c p0 s) {next : Nat → Nat} (hn : ∀ u, u < c.g.n → next u < c.k) :
    ∃ lock : Nat → Bool, ∀ u, u < c.g.n → filterMove? c s next u = some (lock u) ∧ Filters c.g (blk s.part) next u (lock u) := by
  have : ∀ u, ∃ x, u < c.g.n → filterMove? c s next u = some x ∧ Filters c.g (blk s.part) next u x := by
    intro u
    by_cases hu : u < c.g.n
    · obtain ⟨x, hx⟩ := filter_ok ok.wf (h.cache.exact ok) (fun u hu => h.valid.blk_lt hu) hn hu
      exact ⟨x, fun _ => hx⟩
    · exact ⟨false, fun h => absurd h hu⟩
  choose lock hl using this
  exact ⟨lock, hl⟩

/-- Once moves are selected and executed and the balancer returns, the iteration can be completed. -/
theorem Inv.iter_ex {c : Cfg} (ok : Ok c) {p0 : Nat → Nat} {s : St} (h : Inv c p0 s) {r : Nat} (i f : Nat) {next : Nat → Nat} {lock : Nat → Bool}
    (hnext : ∀ u, u < c.g.n → findMove? c r s u = some (next u)) (hlock : ∀ u, u < c.g.n → filterMove? c s next u = some (lock u))
    {p : Partitioned.State} (hexec : Exec c (setOps (locked c lock) next) (quiet s.part s.bw) p)
    {b b' : Balancer.State} (hb : b.core = quiet p.part p.bw) (hstart : Balancer.Start c.balancer b) (hrun : Balancer.Run c.balancer b b') :
    ∃ cache, Iter c r i f s (s.finish b'.core.part b'.core.bw cache lock (c.g.cut (blk b'.core.part)) (nextCtrl c s.bestCut (c.g.cut (blk b'.core.part)) r i f)) := by
  have hn := fun u hu => h.next_lt ok hu (hnext u hu)
  have hnd : (locked c lock).Nodup := List.nodup_range.filter _
  have hlt : ∀ u ∈ locked c lock, u < c.g.n := fun u hu => List.mem_range.1 (List.mem_filter.1 hu).1
  obtain ⟨hv1, hp1⟩ := exec_sets h.valid hnd (fun u hu hlt => hn u hlt) hexec
  have hvd := valid_distinct (n := c.g.n) (k := c.k) (f := blk s.part) (t := next) (locked c lock) (blk s.part) hnd
    fun u hu => ⟨hlt u hu, hn u (hlt u hu), rfl⟩
  obtain ⟨evs, hevs⟩ := evs_ex c.g (lockedMoves c s.part next lock)
  obtain ⟨cache, hcache⟩ := h.cache.ex_cache ok hvd.1 hevs
  have hc1 : CacheOk c p.part s.L { s.gc with cache := cache } := h.cache.moves hvd.1 hevs hcache fun u hu => by
    have h1 := hvd.2 u
    rw [h1]
    unfold blk
    rw [hp1 u]
    split <;> rfl
  obtain ⟨hv2, hm2, hp2, hbal⟩ := balance_ok ok hb hv1 hstart hrun
  obtain ⟨evs', hevs'⟩ := evs_ex c.g (movesOf b'.core.hist)
  obtain ⟨cache', hcache'⟩ := hc1.ex_cache ok hm2 hevs'
  exact ⟨cache', .mk next lock p evs cache b b' evs' cache' _ hnext hlock hexec hevs hcache hb hstart hrun hevs' hcache' (edgeCut_ex ok _)⟩

end Verif.Jet
