import Verif.Multilevel.Sync

/-!
# Lemmas: deep multilevel partitioning
-/

namespace Verif.Multilevel
open Verif.Math Verif.Subgraph Verif.Subgraph.Props Verif.Blocks Verif.Blocks.Props Verif.Limits Verif.Metrics

/-- The levels of the coarsener, the finest graph is `g`. -/
inductive Hier (W : Int) (g : LGraph) : List (LGraph × (Nat → Nat)) → LGraph → Prop
  | nil : GOk W g → Hier W g [] g
  | cons {stack : List (LGraph × (Nat → Nat))} {cur : LGraph} {f : Nat → Nat} {c : LGraph} : Hier W g stack cur → GOk W c →
    (∀ u, u < cur.length → f u < c.length) → c.length ≤ cur.length → c.m ≤ cur.m → Hier W g ((cur, f) :: stack) c

theorem Hier.ok {W : Int} {g : LGraph} {stack : List (LGraph × (Nat → Nat))} {cur : LGraph} (h : Hier W g stack cur) : GOk W cur := by
  cases h with
  | nil h => exact h
  | cons _ h _ _ _ => exact h

variable {cfg : Cfg} {e : Env} {W : Int}

theorem refined_isRefined {key : Key} {p : PG} {ctx : PCtx} (hv : p.Valid)
    (hc : createKway? cfg.rd cfg.input (info p.g) p.k = some ctx) : IsRefined cfg e (refined e key p ctx) :=
  ⟨ctx, hc, key, p, rfl, rfl, hv, rfl⟩

/-- Extensions are safe while the levels are removed: as long as there are fewer than `k` blocks, the memory exists
and has room. -/
def Safe (cfg : Cfg) (size : Sizes) (last : Option Nat) : List (LGraph × (Nat → Nat)) → LGraph → Prop
  | [], cur => Room size cur cfg.k
  | x :: rest, _ => Room size x.1 cfg.k ∧
    (kForN? x.1.length cfg.limit cfg.k = some cfg.k ∨ last ≠ some rest.length ∧ Safe cfg size last rest x.1)

theorem deepExtend_spec (h : Hyp cfg e W) {g : LGraph} (hg : GOk W g) (last : Option Nat) (level : Nat) (key : Key) (s : St)
    {p : PG} (hp : POk cfg g p) {desired : Nat} (hd : Step cfg.k desired) (hlt : p.k < desired) :
    ∃ r, deepExtend? cfg e last level key s p desired = some r ∧ POk cfg g r.1 ∧ r.1.k = desired ∧
      createKway? cfg.rd cfg.input (info r.1.g) r.1.k = some r.2.1 ∧
      (last ≠ some level → r.2.2.size = s.size) ∧
      (e.MemOk → s.ok = true → (cfg.lazy = true ∨ Room s.size g cfg.k) → r.2.2.ok = true) := by
  obtain ⟨r, hr, hx⟩ := extend_spec h.env h.k31 h.levels h.threads cfg.lazy key s (by rw [hp.g]; exact hg.wf)
    (by rw [hp.g]; exact hg.pos) hp.valid (hp.step.splits hd hlt)
  have hp' : POk cfg g r.1 := ⟨hx.g.trans hp.g, hx.valid, by rw [hx.k]; exact hd⟩
  obtain ⟨ctx, hctx⟩ := kway_defined h hg hp'
  unfold deepExtend?
  rw [hr]
  simp only [Option.bind_eq_bind, Option.bind_some]
  rw [hctx, Option.bind_some]
  refine ⟨_, rfl, hp', hx.k, hctx, ?_, ?_⟩
  · intro hne
    show (if last = some level then _ else _ : St).size = _
    rw [if_neg hne]
    exact hx.size
  · intro hm hok hroom
    have := hx.ok hm hok (by rw [hp.g]; exact hroom)
    show (if last = some level then _ else _ : St).ok = _
    split
    · exact this
    · exact this

/-- The loop of `uncoarsen`. -/
theorem uncoarsenLoop_spec (h : Hyp cfg e W) {g : LGraph} (last : Option Nat) {stack : List (LGraph × (Nat → Nat))} {cur : LGraph}
    (hs : Hier W g stack cur) : ∀ (s : St) (p : PG) (ref : Bool), POk cfg cur p → (ref = true → IsRefined cfg e p) →
    ∃ r, uncoarsenLoop? cfg e last stack s p ref = some r ∧ POk cfg g r.1 ∧ (r.2.2 = true → IsRefined cfg e r.1) ∧
      ∀ size, e.MemOk → s.ok = true → (cfg.lazy = true ∨ p.k = cfg.k ∨ s.size = size ∧ Safe cfg size last stack cur) →
        r.2.1.ok = true ∧ (cfg.lazy = true ∨ r.1.k = cfg.k ∨ r.2.1.size = size ∧ Room size g cfg.k) := by
  induction hs with
  | nil hg => exact fun s p ref hp href => ⟨_, rfl, hp, href, fun size _ hok hsafe => ⟨hok, hsafe⟩⟩
  | @cons stack cur f c hs hc hf _ _ ih =>
    intro s p ref hp _
    have hgc := hs.ok
    have hp1 : POk cfg cur ⟨cur, p.k, fun u => p.part (f u)⟩ :=
      ⟨rfl, fun u hu => hp.valid _ (by rw [hp.g]; exact hf u hu), hp.step⟩
    obtain ⟨ctx, hctx⟩ := kway_defined h hgc hp1
    have hp2 := refined_ok h [stack.length, 0] ctx hp1
    obtain ⟨kn, hkn, hkns⟩ := kForN_step h hgc.small
    rw [uncoarsenLoop?]
    simp only [Option.bind_eq_bind]
    dsimp only at hctx
    rw [hctx, Option.bind_some]
    have hpg : (refined e [stack.length, 0] ⟨cur, p.k, fun u => p.part (f u)⟩ ctx).g = cur := rfl
    rw [hpg, hkn, Option.bind_some]
    have hpk : (refined e [stack.length, 0] ⟨cur, p.k, fun u => p.part (f u)⟩ ctx).k = p.k := rfl
    split
    · rename_i hlt
      rw [hpk] at hlt
      obtain ⟨r, r1, r2, r3, r4, r5, r6⟩ := deepExtend_spec h hgc last stack.length [stack.length] s hp2 hkns hlt
      rw [r1, Option.bind_some]
      have main : ∀ (q : PG) (b : Bool), q.k = r.1.k → POk cfg cur q → (b = true → IsRefined cfg e q) →
          ∃ r', uncoarsenLoop? cfg e last stack r.2.2 q b = some r' ∧ POk cfg g r'.1 ∧ (r'.2.2 = true → IsRefined cfg e r'.1) ∧
            ∀ size, e.MemOk → s.ok = true →
              (cfg.lazy = true ∨ p.k = cfg.k ∨ s.size = size ∧ Safe cfg size last ((cur, f) :: stack) c) →
              r'.2.1.ok = true ∧ (cfg.lazy = true ∨ r'.1.k = cfg.k ∨ r'.2.1.size = size ∧ Room size g cfg.k) := by
        intro q b hqk hq hqr
        obtain ⟨r', a1, a2, a3, a4⟩ := ih r.2.2 q b hq hqr
        refine ⟨r', a1, a2, a3, ?_⟩
        intro size hm hok hsafe
        have hk2 := hkns.2.1
        have hroom : cfg.lazy = true ∨ s.size = size ∧ Safe cfg size last ((cur, f) :: stack) c := by
          rcases hsafe with hsafe | hsafe | hsafe
          · exact Or.inl hsafe
          · omega
          · exact Or.inr hsafe
        refine a4 size hm (r6 hm hok ?_) ?_
        · rcases hroom with hroom | ⟨e1, e2⟩
          · exact Or.inl hroom
          · right; rw [e1]; exact e2.1
        · rcases hroom with hroom | ⟨e1, e2⟩
          · exact Or.inl hroom
          · right
            rcases e2.2 with e3 | ⟨e3, e4⟩
            · left
              rw [hkn] at e3
              cases e3
              rw [hqk, r3]
            · right
              exact ⟨(r5 e3).trans e1, e4⟩
      split
      · exact main _ true rfl (refined_ok h _ _ r2) fun _ => refined_isRefined r2.valid r4
      · exact main _ false rfl r2 fun hb => absurd hb (by decide)
    · rename_i hlt
      rw [hpk] at hlt
      obtain ⟨r', a1, a2, a3, a4⟩ := ih s _ true hp2 fun _ => refined_isRefined hp1.valid hctx
      refine ⟨r', a1, a2, a3, ?_⟩
      intro size hm hok hsafe
      refine a4 size hm hok ?_
      rcases hsafe with hsafe | hsafe | ⟨e1, e2⟩
      · exact Or.inl hsafe
      · exact Or.inr (Or.inl hsafe)
      · right
        rcases e2.2 with e3 | ⟨e3, e4⟩
        · left
          rw [hkn] at e3
          cases e3
          have := hp.step.2.1
          show p.k = cfg.k
          omega
        · exact Or.inr ⟨e1, e4⟩

/-- The end of `uncoarsen`. -/
theorem toplevel_spec (h : Hyp cfg e W) {g : LGraph} (hg : GOk W g) (last : Option Nat) (s : St) {p : PG} (hp : POk cfg g p)
    {ref : Bool} (href : ref = true → IsRefined cfg e p) :
    ∃ r, toplevel? cfg e last s p ref = some r ∧ POk cfg g r.1 ∧ r.1.k = cfg.k ∧ IsRefined cfg e r.1 ∧
      (e.MemOk → s.ok = true → (cfg.lazy = true ∨ p.k = cfg.k ∨ Room s.size g cfg.k) → r.2.ok = true) := by
  obtain ⟨ctx, hctx⟩ := kway_defined h hg hp
  have hk := hp.step.2.1
  have hks : Step cfg.k cfg.k := ⟨h.k2, le_refl _, Or.inl rfl⟩
  have main : ∀ q : PG, POk cfg g q → q.k = p.k → p.k < cfg.k → ∃ r, (deepExtend? cfg e last 0 [0, 3] s q cfg.k).bind
      (fun r => some (refined e [0, 4] r.1 r.2.1, r.2.2)) = some r ∧ POk cfg g r.1 ∧ r.1.k = cfg.k ∧ IsRefined cfg e r.1 ∧
      (e.MemOk → s.ok = true → (cfg.lazy = true ∨ p.k = cfg.k ∨ Room s.size g cfg.k) → r.2.ok = true) := by
    intro q hq hqk hlt
    obtain ⟨r, r1, r2, r3, r4, _, r6⟩ := deepExtend_spec h hg last 0 [0, 3] s hq hks (by rw [hqk]; exact hlt)
    rw [r1, Option.bind_some]
    refine ⟨_, rfl, refined_ok h _ _ r2, r3, refined_isRefined r2.valid r4, ?_⟩
    intro hm hok hroom
    refine r6 hm hok ?_
    rcases hroom with hroom | hroom | hroom
    · exact Or.inl hroom
    · omega
    · exact Or.inr hroom
  unfold toplevel?
  simp only [Option.bind_eq_bind]
  rw [hctx, Option.bind_some]
  cases ref with
  | true =>
    rw [if_neg (by decide : ¬ true = false)]
    split
    · rename_i hc
      have hlt : p.k < cfg.k := by
        rcases hc with hc | hc
        · cases hc
        · exact hc
      rw [if_pos hlt]
      exact main p hp rfl hlt
    · rename_i hc
      exact ⟨_, rfl, hp, by change p.k = cfg.k; omega, href rfl, fun _ hok _ => hok⟩
  | false =>
    rw [if_pos (Or.inl rfl), if_pos rfl]
    have hr := refined_ok h [0, 2] ctx hp
    have hrk : (refined e [0, 2] p ctx).k = p.k := rfl
    split
    · rename_i hlt
      exact main _ hr rfl hlt
    · rename_i hc
      exact ⟨_, rfl, hr, by change p.k = cfg.k; omega, refined_isRefined hp.valid hctx, fun _ hok _ => hok⟩

/-! ## Coarsening -/

/-- The memory has room for `g` and every smaller graph, weighted or not. -/
def FullRoom (s : Sizes) (g : LGraph) (k : Nat) : Prop :=
  g.length + k ≤ s.nodes ∧ g.m ≤ s.edges ∧ g.length + k ≤ s.nw ∧ g.m ≤ s.ew

theorem FullRoom.room {s : Sizes} {g : LGraph} {k : Nat} (h : FullRoom s g k) : Room s g k :=
  ⟨h.1, h.2.1, fun _ => h.2.2.1, fun _ => h.2.2.2⟩

/-- The memory that is allocated for these numbers. -/
def Coarsening.size (k : Nat) (c : Coarsening) : Sizes := weightedResize c.n k c.m c.nw c.mw

/-- Invariant of the numbers for the memory. -/
structure MInv (cfg : Cfg) (g : LGraph) (c : Coarsening) : Prop where
  /-- while searching, all coarse graphs are large enough for `k` blocks -/
  search : c.search = true → c.last = some 0 ∧
    (∀ x rest pre, c.stack = pre ++ x :: rest → rest ≠ [] → kForN? x.1.length cfg.limit cfg.k = some cfg.k) ∧
    (c.stack ≠ [] → kForN? c.cur.length cfg.limit cfg.k = some cfg.k) ∧
    (c.stack = [] → c.prevN = c.cur.length ∧ c.prevM = c.cur.m) ∧
    (∀ x rest, c.stack = x :: rest → c.prevN = x.1.length ∧ c.prevM = x.1.m)
  found : c.search = false → FullRoom (c.size cfg.k) c.cur cfg.k ∧ Safe cfg (c.size cfg.k) c.last c.stack c.cur ∧
    ∀ t, c.last = some t → t < c.stack.length

theorem GOk.pos_length {g : LGraph} (h : Hyp cfg e W) (hg : GOk W g) : g.length ≠ 0 := by
  intro h0
  have : g = [] := List.length_eq_zero_iff.1 h0
  have h1 := hg.total
  have h2 := h.limits.1
  rw [this] at h1
  change (0 : Int) = W at h1
  omega

theorem coarsenStep_spec (h : Hyp cfg e W) {g : LGraph} {c : Coarsening} (hc : Hier W g c.stack c.cur)
    (hnoop : (∀ key g, (e.coarsen key g).1 = none) → c.stack = []) :
    ∃ c', coarsenStep? cfg e c = some c' ∧ Hier W g c'.stack c'.cur ∧
      ((∀ key g, (e.coarsen key g).1 = none) → c'.stack = []) ∧
      (c'.shrunk = true → c'.cur.length < c.cur.length) ∧
      (kForN? g.length cfg.limit cfg.k = some cfg.k → MInv cfg g c → MInv cfg g c') := by
  obtain ⟨a1, a2, a3, a4⟩ := coarse_ok h [c.stack.length] hc.ok
  obtain ⟨kn, hkn, hkns⟩ := kForN_step h a1.small
  have hpos := a1.pos_length h
  -- the hierarchy after the step
  obtain ⟨stack, hstack⟩ : ∃ s, s = pushed (e.coarsen [c.stack.length] c.cur) c.cur c.stack := ⟨_, rfl⟩
  have hh : Hier W g stack (coarse (e.coarsen [c.stack.length] c.cur) c.cur) := by
    rw [hstack]
    unfold pushed
    unfold coarse at a1 a2 a3 ⊢
    cases hr : (e.coarsen [c.stack.length] c.cur).1 with
    | none => exact hc
    | some x =>
      rw [hr] at a1 a2 a3
      obtain ⟨_, _, _, b4, _, _⟩ := h.env.coarsen [c.stack.length] c.cur x.1 x.2 hr hc.ok.wf hc.ok.pos
      exact Hier.cons hc a1 b4 a2 a3
  have hcases : (stack = c.stack ∧ coarse (e.coarsen [c.stack.length] c.cur) c.cur = c.cur ∧ ∀ key g, (e.coarsen key g).1 = none) ∨
      ∃ f, stack = (c.cur, f) :: c.stack := by
    rw [hstack]
    unfold pushed coarse
    cases hr : (e.coarsen [c.stack.length] c.cur).1 with
    | none =>
      left
      refine ⟨rfl, rfl, ?_⟩
      rcases h.env.kind with hk | hk
      · exact hk
      · exact absurd hr (hk _ _)
    | some x => exact Or.inr ⟨x.2, rfl⟩
  have hno : (∀ key g, (e.coarsen key g).1 = none) → stack = [] := by
    intro hk
    rcases hcases with ⟨e1, _⟩ | ⟨f, e1⟩
    · rw [e1]; exact hnoop hk
    · rw [hstack] at e1
      unfold pushed at e1
      rw [hk] at e1
      exact absurd e1 (by simp)
  unfold coarsenStep?
  simp only [← hstack]
  generalize hcg : coarse (e.coarsen [c.stack.length] c.cur) c.cur = cur at *
  -- once the memory is fixed
  have hfound : ∀ c' : Coarsening, MInv cfg g c → c.search = false → c'.search = false → c'.last = c.last →
      c'.size cfg.k = c.size cfg.k → c'.stack = stack → c'.cur = cur → MInv cfg g c' := by
    intro c' hi hsf hsf' hl hsz hst hcu
    obtain ⟨f1, f2, f3⟩ := hi.found hsf
    refine ⟨fun hs => absurd hs (by rw [hsf']; decide), fun _ => ?_⟩
    rw [hl, hsz, hst, hcu]
    have hfull : FullRoom (c.size cfg.k) cur cfg.k := by
      obtain ⟨g1, g2, g3, g4⟩ := f1
      exact ⟨by omega, by omega, by omega, by omega⟩
    rcases hcases with ⟨e1, e2, _⟩ | ⟨f, e1⟩
    · rw [e1, e2]
      exact ⟨f1, f2, f3⟩
    · rw [e1]
      refine ⟨hfull, ⟨f1.room, Or.inr ⟨?_, f2⟩⟩, ?_⟩
      · intro hls
        exact absurd (f3 _ hls) (by omega)
      · intro t ht
        have := f3 t ht
        rw [List.length_cons]
        omega
  cases hsr : c.search with
  | false =>
    rw [if_neg (by decide)]
    refine ⟨_, rfl, hh, hno, a4, ?_⟩
    intro _ hi
    exact hfound _ hi hsr rfl rfl rfl rfl rfl
  | true =>
    rw [if_pos rfl, hkn]
    simp only [Option.bind_eq_bind, Option.bind_some]
    split
    · rename_i hlt
      refine ⟨_, rfl, hh, hno, a4, ?_⟩
      intro hkg hi
      obtain ⟨s1, s2, s3, s4, s5⟩ := hi.search hsr
      refine ⟨fun hs => absurd hs (by simp), fun _ => ?_⟩
      -- the current graph has room for `k` blocks
      have hcurk : c.stack ≠ [] → kForN? c.cur.length cfg.limit cfg.k = some cfg.k := s3
      have hcurk0 : kForN? c.cur.length cfg.limit cfg.k = some cfg.k := by
        by_cases h0 : c.stack = []
        · rw [h0] at hc
          cases hc
          exact hkg
        · exact hcurk h0
      rcases hcases with ⟨e1, e2, e3⟩ | ⟨f, e1⟩
      · exfalso
        rw [e2, hcurk0] at hkn
        cases hkn
        omega
      · subst e1
        dsimp only [Coarsening.size]
        have hw0 : c.cur.length ≠ 0 := by omega
        have hroom : ∀ nw mw, (c.cur.nodeWeighted = true → nw = c.cur.length) → (c.cur.edgeWeighted = true → mw = c.cur.m) →
            (nw = cur.length ∨ nw = c.cur.length) → (mw = cur.m ∨ mw = c.cur.m) →
            FullRoom (weightedResize c.cur.length cfg.k c.cur.m nw mw) cur cfg.k ∧
            Room (weightedResize c.cur.length cfg.k c.cur.m nw mw) c.cur cfg.k := by
          intro nw mw w1 w2 w3 w4
          unfold weightedResize FullRoom Room
          dsimp only
          rw [if_neg (by omega)]
          refine ⟨⟨by omega, by omega, by omega, by omega⟩, le_refl _, le_refl _, ?_, ?_⟩
          · intro hw; rw [w1 hw]
          · intro hw; rw [w2 hw]
        have hr2 := hroom (if ((c.cur, f) :: c.stack).length = 1 ∧ c.cur.nodeWeighted = false then cur.length else c.cur.length)
          (if ((c.cur, f) :: c.stack).length = 1 ∧ c.cur.edgeWeighted = false then cur.m else c.cur.m)
          (by intro hw; rw [if_neg]; rw [hw]; simp)
          (by intro hw; rw [if_neg]; rw [hw]; simp)
          (by split; exact Or.inl rfl; exact Or.inr rfl) (by split; exact Or.inl rfl; exact Or.inr rfl)
        refine ⟨hr2.1, ⟨hr2.2, Or.inl hcurk0⟩, ?_⟩
        intro t ht
        rw [if_neg (by simp)] at ht
        cases ht
        rw [List.length_cons]
        omega
    · rename_i hlt
      refine ⟨_, rfl, hh, hno, a4, ?_⟩
      intro hkg hi
      have hkne : kn = cfg.k := by have := hkns.2.1; omega
      rw [hkne] at hkn
      obtain ⟨s1, s2, s3, s4, s5⟩ := hi.search hsr
      refine ⟨fun _ => ⟨s1, ?_, fun _ => hkn, ?_, ?_⟩, fun hs => absurd hs (by simp)⟩
      · dsimp only
        intro x rest pre hpre hne
        rcases hcases with ⟨e1, e2, _⟩ | ⟨f, e1⟩
        · rw [e1] at hpre
          exact s2 x rest pre hpre hne
        · rw [e1] at hpre
          cases pre with
          | nil =>
            rw [List.nil_append] at hpre
            cases hpre
            exact s3 hne
          | cons y pre =>
            rw [List.cons_append] at hpre
            exact s2 x rest pre (List.cons.inj hpre).2 hne
      · dsimp only
        intro h0
        rcases hcases with ⟨e1, e2, _⟩ | ⟨f, e1⟩
        · rw [e2]; exact ⟨rfl, rfl⟩
        · rw [e1] at h0; cases h0
      · dsimp only
        intro x rest hst
        rcases hcases with ⟨e1, e2, e3⟩ | ⟨f, e1⟩
        · rw [hno e3] at hst
          cases hst
        · rw [e1] at hst
          cases hst
          exact ⟨rfl, rfl⟩

theorem coarsenLoop_spec (h : Hyp cfg e W) {g : LGraph} : ∀ (n : Nat) (c : Coarsening), c.cur.length ≤ n →
    Hier W g c.stack c.cur → ((∀ key g, (e.coarsen key g).1 = none) → c.stack = []) →
    ∃ c', (∀ fuel, n + 2 ≤ fuel → coarsenLoop? cfg e fuel c = some c') ∧ Hier W g c'.stack c'.cur ∧
      (kForN? g.length cfg.limit cfg.k = some cfg.k → MInv cfg g c → MInv cfg g c') := by
  have hend : ∀ c : Coarsening, ¬ (c.shrunk = true ∧ c.cur.length > cfg.threshold) → ∀ fuel, 1 ≤ fuel →
      coarsenLoop? cfg e fuel c = some c := by
    intro c hc fuel hf
    obtain ⟨f, rfl⟩ : ∃ f, fuel = f + 1 := ⟨fuel - 1, by omega⟩
    rw [coarsenLoop?, if_neg hc]
  intro n
  induction n with
  | zero =>
    intro c hn hh _
    exact ⟨c, fun fuel hf => hend c (by omega) fuel (by omega), hh, fun _ hm => hm⟩
  | succ n ih =>
    intro c hn hh hno
    by_cases hc : c.shrunk = true ∧ c.cur.length > cfg.threshold
    · obtain ⟨c1, b1, b2, b3, b4, b5⟩ := coarsenStep_spec h hh hno
      have hstep : ∀ fuel, 1 ≤ fuel → coarsenLoop? cfg e fuel c = coarsenLoop? cfg e (fuel - 1) c1 := by
        intro fuel hf
        obtain ⟨f, rfl⟩ : ∃ f, fuel = f + 1 := ⟨fuel - 1, by omega⟩
        rw [coarsenLoop?, if_pos hc, b1]
        rfl
      by_cases hs : c1.shrunk = true
      · have := b4 hs
        obtain ⟨c', d1, d2, d3⟩ := ih c1 (by omega) b2 b3
        refine ⟨c', fun fuel hf => ?_, d2, fun hk hm => d3 hk (b5 hk hm)⟩
        rw [hstep fuel (by omega)]
        exact d1 _ (by omega)
      · refine ⟨c1, fun fuel hf => ?_, b2, b5⟩
        rw [hstep fuel (by omega)]
        exact hend c1 (fun hc => hs hc.1) _ (by omega)
    · exact ⟨c, fun fuel hf => hend c hc fuel (by omega), hh, fun _ hm => hm⟩

theorem coarsen_spec (h : Hyp cfg e W) {g : LGraph} (hg : GOk W g) :
    ∃ c, (∀ fuel, g.length + 2 ≤ fuel → coarsen? cfg e fuel g = some c) ∧ Hier W g c.stack c.cur ∧
      (kForN? g.length cfg.limit cfg.k = some cfg.k ∨ g.length ≤ cfg.threshold →
        Safe cfg (weightedResize c.n cfg.k c.m c.nw c.mw) c.last c.stack c.cur) := by
  obtain ⟨c, c1, c2, c3⟩ := coarsenLoop_spec h g.length ⟨g, [], g.length, g.m, true, true, some 0, 0, 0, 0, 0⟩ (le_refl _)
    (Hier.nil hg) (fun _ => rfl)
  have hpos := hg.pos_length h
  have hinit : MInv cfg g ⟨g, [], g.length, g.m, true, true, some 0, 0, 0, 0, 0⟩ := by
    refine ⟨fun _ => ⟨rfl, ?_, fun h0 => absurd rfl h0, fun _ => ⟨rfl, rfl⟩, ?_⟩, fun h0 => absurd h0 (by simp)⟩
    · intro x rest pre hp; exact absurd hp (by simp)
    · intro x rest hp; exact absurd hp (by simp)
  have hroomN : ∀ n m, n ≠ 0 → ∀ x : LGraph, n = x.length → m = x.m → Room (weightedResize n cfg.k m n m) x cfg.k := by
    intro n m hn x h1 h2
    unfold weightedResize Room
    dsimp only
    rw [if_neg hn]
    exact ⟨by omega, by omega, fun _ => by omega, fun _ => by omega⟩
  refine ⟨if c.search then { c with n := c.prevN, nw := c.prevN, m := c.prevM, mw := c.prevM } else c, ?_, ?_, ?_⟩
  · intro fuel hf
    unfold coarsen?
    rw [c1 fuel hf]
    rfl
  · split
    · exact c2
    · exact c2
  · intro hor
    by_cases hk : kForN? g.length cfg.limit cfg.k = some cfg.k
    · have hi := c3 hk hinit
      cases hs : c.search with
      | false =>
        rw [if_neg (by decide)]
        exact (hi.found hs).2.1
      | true =>
        rw [if_pos rfl]
        obtain ⟨s1, s2, s3, s4, s5⟩ := hi.search hs
        dsimp only
        cases hst : c.stack with
        | nil =>
          obtain ⟨e1, e2⟩ := s4 hst
          have hcp := c2.ok.pos_length h
          exact hroomN c.prevN c.prevM (by omega) c.cur e1 e2
        | cons x rest =>
          obtain ⟨e1, e2⟩ := s5 x rest hst
          rw [hst] at c2
          cases c2 with
          | cons q1 q2 q3 q4 q5 =>
            have hxp := q1.ok.pos_length h
            dsimp only at e1 e2
            refine ⟨hroomN _ _ (by omega) _ e1 e2, Or.inl ?_⟩
            by_cases hr : rest = []
            · subst hr
              cases q1
              exact hk
            · exact s2 _ rest [] hst hr
    · have hle : g.length ≤ cfg.threshold := by
        rcases hor with hor | hor
        · exact absurd hor hk
        · exact hor
      have hc : c = ⟨g, [], g.length, g.m, true, true, some 0, 0, 0, 0, 0⟩ := by
        have := c1 (g.length + 2) (le_refl _)
        rw [coarsenLoop?, if_neg (by dsimp only; omega)] at this
        exact (Option.some.inj this).symm
      subst hc
      rw [if_pos rfl]
      exact hroomN _ _ hpos g rfl rfl

/-! ## The partitioner -/

/-- `compute_num_threads_for_parallel_ip`: a power of two, at most the number of threads. -/
theorem ipThreads_pow (hrd : DoubleRounding cfg.rd) (hth : cfg.threads ≤ 2 ^ 31) (hl1 : cfg.load ≤ 1)
    (hone : 1 ≤ cfg.rd (cfg.rd cfg.threads * cfg.load)) :
    ∃ a, cfg.ipThreads? = some (2 ^ a) ∧ 2 ^ a ≤ cfg.threads := by
  have hex : cfg.rd cfg.threads = cfg.threads := by
    have hb : |(cfg.threads : Int)| ≤ 2 ^ 53 := by
      rw [abs_of_nonneg (by omega)]
      omega
    have := hrd.exact (cfg.threads : Int) 0 hb (by omega)
    simpa using this
  have hle : cfg.rd (cfg.rd cfg.threads * cfg.load) ≤ cfg.threads := by
    rw [hex]
    have h1 : cfg.rd ((cfg.threads : ℚ) * cfg.load) ≤ cfg.rd (cfg.threads : ℚ) := by
      apply hrd.mono
      have : (0 : ℚ) ≤ cfg.threads := Nat.cast_nonneg _
      nlinarith
    rw [hex] at h1
    exact h1
  generalize hx : cfg.rd (cfg.rd cfg.threads * cfg.load) = x at *
  have hf1 : (1 : Int) ≤ ⌊x⌋ := by rw [Int.le_floor]; simpa using hone
  have hf2 : ⌊x⌋ ≤ (cfg.threads : Int) := by
    have : (⌊x⌋ : ℚ) ≤ (cfg.threads : ℚ) := le_trans (Int.floor_le x) hle
    exact_mod_cast this
  obtain ⟨y, hy⟩ : ∃ y, ⌊x⌋.toNat = y := ⟨_, rfl⟩
  have hy1 : 1 ≤ y := by omega
  have hy2 : y ≤ cfg.threads := by omega
  have hlog : 2 ^ Nat.log2 y ≤ y := Nat.log2_self_le (by omega)
  have hlt : Nat.log2 y < 32 := (Nat.log2_lt (by omega)).2 (by omega)
  refine ⟨Nat.log2 y, ?_, by omega⟩
  unfold Cfg.ipThreads? floor2?
  rw [hx, hy, floorLog2_eq (by omega) (by omega), Option.bind_some, if_pos hlt]

theorem initialPartition_spec (h : Hyp cfg e W) (ht : ThreadsOk cfg) {g : LGraph} (hg : GOk W g) :
    ∃ F, ∀ fuel, F ≤ fuel → ∃ r, initialPartition? cfg e fuel g = some r ∧ POk cfg g r.1 ∧ (e.MemOk → r.2 = true) := by
  cases hm : cfg.mode with
  | sequential =>
    refine ⟨0, fun fuel _ => ⟨(⟨g, 2, e.bipart [] g⟩, true), ?_, ⟨rfl, fun u _ => h.env.bipart _ _ _, step_two h⟩, fun _ => rfl⟩⟩
    unfold initialPartition?
    rw [hm]
  | sync =>
    obtain ⟨a, ha, hth⟩ := ht.resolve_left (by rw [hm]; decide)
    obtain ⟨F, r, r1, r2, _, r4⟩ := syncPartition_spec h hg a hth
    refine ⟨F, fun fuel hf => ⟨r, ?_, r2, r4⟩⟩
    unfold initialPartition?
    rw [hm]
    dsimp only
    rw [ha]
    exact r1 fuel hf
  | async =>
    obtain ⟨a, ha, hth⟩ := ht.resolve_left (by rw [hm]; decide)
    refine ⟨g.length + 2, fun fuel hf => ?_⟩
    obtain ⟨r, kn, b, r1, _, _, r4, _, r6⟩ := splitAndJoin_spec h fuel [] g false a hg hth (Or.inr hf)
    refine ⟨r, ?_, r4, r6⟩
    unfold initialPartition?
    rw [hm]
    dsimp only
    rw [ha]
    exact r1

theorem deep_spec (h : Hyp cfg e W) (ht : ThreadsOk cfg) {g : LGraph} (hg : GOk W g) :
    ∃ F, ∀ fuel, F ≤ fuel → ∃ r, deep? cfg e fuel g = some r ∧ r.1.g = g ∧ r.1.k = cfg.k ∧ r.1.Valid ∧ IsRefined cfg e r.1 ∧
      (e.MemOk → (cfg.lazy = true ∨ kForN? g.length cfg.limit cfg.k = some cfg.k ∨ g.length ≤ cfg.threshold) → r.2 = true) := by
  obtain ⟨c, c1, c2, c3⟩ := coarsen_spec h hg
  obtain ⟨F, hF⟩ := initialPartition_spec h ht c2.ok
  refine ⟨max F (g.length + 2), fun fuel hf => ?_⟩
  obtain ⟨p, p1, p2, p3⟩ := hF fuel (by omega)
  obtain ⟨ctx, hctx⟩ := kway_defined h c2.ok p2
  obtain ⟨size, hsize⟩ : ∃ size : Sizes, size = if cfg.lazy then ⟨0, 0, 0, 0⟩ else weightedResize c.n cfg.k c.m c.nw c.mw :=
    ⟨_, rfl⟩
  obtain ⟨q, q1, q2, q3, q4⟩ := uncoarsenLoop_spec h c.last c2 ⟨size, p.2⟩ p.1 false p2 (fun h0 => absurd h0 (by decide))
  obtain ⟨r, r1, r2, r3, r4, r5⟩ := toplevel_spec h hg c.last q.2.1 q2 q3
  refine ⟨(r.1, r.2.ok), ?_, r2.g, r3, r2.valid, r4, ?_⟩
  · unfold deep?
    rw [c1 fuel (by omega)]
    simp only [Option.bind_eq_bind, Option.bind_some]
    rw [p1, Option.bind_some, hctx, Option.bind_some, ← hsize, q1, Option.bind_some, r1]
    rfl
  · intro hm hor
    have hsafe : cfg.lazy = true ∨ p.1.k = cfg.k ∨ size = size ∧ Safe cfg size c.last c.stack c.cur := by
      cases hl : cfg.lazy with
      | true => exact Or.inl rfl
      | false =>
        rw [hl] at hor hsize
        rw [if_neg (by decide)] at hsize
        right; right
        refine ⟨rfl, ?_⟩
        rw [hsize]
        exact c3 (hor.resolve_left (by decide))
    obtain ⟨a1, a2⟩ := q4 size hm (p3 hm) hsafe
    refine r5 hm a1 ?_
    rcases a2 with a2 | a2 | ⟨a2, a3⟩
    · exact Or.inl a2
    · exact Or.inr (Or.inl a2)
    · right; right; rw [a2]; exact a3

end Verif.Multilevel
