import Verif.InitialPool.Spec
import Verif.FlatBip.Props
import Verif.InitialFM.Props

/-!
# The pool keeps the best bipartition
-/

namespace Verif.InitialPool
open Finset
open Verif.InitialFM (Cfg Bipartition blockW over)
open Verif.FlatBip (Bip Kind)

theorem over_feasible (g : Graph) (maxW : Nat → Int) (p : Nat → Nat) : Feasible g maxW p ↔ over g maxW p = 0 := by
  unfold Feasible over
  omega

theorem feasible_of_over {g : Graph} {maxW : Nat → Int} {p q : Nat → Nat} (h : over g maxW p ≤ over g maxW q) (hq : Feasible g maxW q) :
    Feasible g maxW p := by
  rw [over_feasible] at hq ⊢
  have : 0 ≤ over g maxW p := by unfold over; omega
  omega

theorem refineWith_ok {c : Cfg} (hg : InitialFM.Valid c.g) (enabled : Bool) {o : Nat → InitialFM.Oracle} (ho : ∀ i, (o i).Ok c.g.n) {s : Bip}
    (h : Bipartition c.g s.part s.bw) :
    ∃ s', refineWith? c enabled o s = some s' ∧ Bipartition c.g s'.part s'.bw ∧ c.g.cut s'.part ≤ c.g.cut s.part ∧
      over c.g c.maxW s'.part ≤ over c.g c.maxW s.part := by
  unfold refineWith?
  by_cases he : enabled = true
  · rw [if_pos he]
    obtain ⟨p, bw, r, h1, h2, h3, h4, _⟩ := InitialFM.C53_refine c hg o ho s.part s.bw h
    rw [h1]
    exact ⟨⟨p, bw⟩, rfl, h2, h3, h4⟩
  · rw [if_neg he]
    exact ⟨s, rfl, h, le_refl _, le_refl _⟩

theorem balanced_iff {g : Graph} {maxW : Nat → Int} {s : Bip} (h : Bipartition g s.part s.bw) :
    Metrics.isBalanced 2 s.bw maxW = true ↔ Feasible g maxW s.part := by
  unfold Metrics.isBalanced Feasible
  rw [← h.bw0, ← h.bw1]
  simp [List.range_succ]

theorem totalWeight_eq (g : Graph) : FlatBip.totalWeight g = FlatBip.total g := by
  unfold FlatBip.totalWeight FlatBip.total
  induction g.n with
  | zero => rfl
  | succ n ih => rw [List.range_succ, List.foldl_append, ih, Finset.sum_range_succ]; rfl

theorem imbalance_congr {rd : ℚ → ℚ} {t : Int} {bw bw' : Nat → Int} (h0 : bw 0 = bw' 0) (h1 : bw 1 = bw' 1) :
    imbalance rd t bw = imbalance rd t bw' := by
  unfold imbalance
  simp only [List.range_succ, List.range_zero, List.nil_append, List.cons_append, List.foldl_cons, List.foldl_nil, h0, h1]

theorem AsGood.refl (g : Graph) (maxW : Nat → Int) (rd : ℚ → ℚ) (a : Nat → Nat) : AsGood g maxW rd a a :=
  ⟨id, fun _ => le_refl _, fun _ _ => le_refl _⟩

theorem AsGood.trans {g : Graph} {maxW : Nat → Int} {rd : ℚ → ℚ} {a b c : Nat → Nat} (h : AsGood g maxW rd a b) (h' : AsGood g maxW rd b c) :
    AsGood g maxW rd a c := by
  refine ⟨fun hc => h.feasible (h'.feasible hc), fun hi => ?_, fun hi he => ?_⟩
  · have hab : Feasible g maxW a ↔ Feasible g maxW b := ⟨fun ha => h'.feasible (hi.1 ha), h.feasible⟩
    exact (h.cut hab).trans (h'.cut (hab.symm.trans hi))
  · have hab : Feasible g maxW a ↔ Feasible g maxW b := ⟨fun ha => h'.feasible (hi.1 ha), h.feasible⟩
    have hbc := hab.symm.trans hi
    have h1 := h.cut hab
    have h2 := h'.cut hbc
    exact (h.imbalance hab (by omega)).trans (h'.imbalance hbc (by omega))

/-- The invariant of the pool. -/
structure PInv (c : Cfg) (pc : PoolCfg) (rd : ℚ → ℚ) (cap inf : Nat) (p : Pool) : Prop where
  bip : ∀ x ∈ p.runs, Bipartition c.g x.2.part x.2.bw
  origin : ∀ x ∈ p.runs, Produced c pc cap inf x.1 x.2
  start : p.runs = [] → p.bestCut = c.maxKey ∧ p.bestFeas = false
  best : p.runs ≠ [] → (p.winner, p.best) ∈ p.runs ∧ p.bestCut = c.g.cut p.best.part ∧
    p.bestImb = imbalance rd (FlatBip.total c.g) (blockW c.g p.best.part) ∧ (p.bestFeas = true ↔ Feasible c.g c.maxW p.best.part)
  good : ∀ x ∈ p.runs, AsGood c.g c.maxW rd p.best.part x.2.part

theorem accepts_iff (p : Pool) (cut : Int) (imb : ℚ) (feas : Bool) : p.accepts cut imb feas = true ↔
    (p.bestFeas = false ∧ feas = true) ∨ (p.bestFeas = feas ∧ (cut < p.bestCut ∨ (cut = p.bestCut ∧ imb < p.bestImb))) := by
  unfold Pool.accepts
  cases p.bestFeas <;> cases feas <;> simp

theorem run_ok {c : Cfg} {pc : PoolCfg} {rd : ℚ → ℚ} {cap inf : Nat} (hg : InitialFM.Valid c.g) (hcap : c.g.n ≤ cap) (hinf : 0 < inf)
    (hcut : ∀ q, c.g.cut q < c.maxKey) {i : Nat} {kind : Kind} (hk : pc.kinds[i]? = some kind) {o : RunOracle} (ho : o.Ok c.g.n) {p : Pool}
    (h : PInv c pc rd cap inf p) :
    ∃ p' s, run? c pc rd cap inf i kind o p = some p' ∧ p'.runs = (i, s) :: p.runs ∧ PInv c pc rd cap inf p' := by
  obtain ⟨s0, h1, h2⟩ := FlatBip.C55_bipartition c hg.wf cap inf hcap hinf kind o.flat ho.flat p.cur
  obtain ⟨s, h3, h4, _⟩ := refineWith_ok (c := { c with iterations := pc.iterations }) hg pc.refine ho.fm h2
  have hb : Bipartition c.g s.part s.bw := h4
  have hprod : Produced c pc cap inf i s := ⟨kind, o, p.cur, s0, hk, ho, h1, h3⟩
  unfold run?
  simp only [h1, Option.bind_eq_bind, Option.bind_some, h3, Metrics.C19_edge_cut_sequential c.g hg.wf hg.symm]
  have himb : imbalance rd (FlatBip.totalWeight c.g) s.bw = imbalance rd (FlatBip.total c.g) (blockW c.g s.part) := by
    rw [totalWeight_eq]; exact imbalance_congr hb.bw0 hb.bw1
  have hfeas := balanced_iff (maxW := c.maxW) hb
  rw [himb]
  generalize Metrics.isBalanced 2 s.bw c.maxW = feas at hfeas ⊢
  by_cases ha : p.accepts (c.g.cut s.part) (imbalance rd (FlatBip.total c.g) (blockW c.g s.part)) feas = true
  · rw [if_pos ha]
    refine ⟨_, s, rfl, rfl, ?_, ?_, fun h => (by cases h), fun _ => ⟨List.mem_cons_self, rfl, rfl, hfeas⟩, ?_⟩
    · intro x hx
      rcases List.mem_cons.1 hx with rfl | hx
      · exact hb
      · exact h.bip x hx
    · intro x hx
      rcases List.mem_cons.1 hx with rfl | hx
      · exact hprod
      · exact h.origin x hx
    · intro x hx
      rcases List.mem_cons.1 hx with rfl | hx
      · exact AsGood.refl ..
      · obtain ⟨_, h5, h6, h7⟩ := h.best (by intro h0; rw [h0] at hx; cases hx)
        refine AsGood.trans ?_ (h.good x hx)
        rw [accepts_iff, h5, h6] at ha
        rcases ha with ⟨ha, hf⟩ | ⟨ha, hlt⟩
        · have hn : ¬ Feasible c.g c.maxW p.best.part := fun hp => by rw [h7.2 hp] at ha; cases ha
          have hy := hfeas.1 hf
          exact ⟨fun hp => absurd hp hn, fun hi => absurd (hi.1 hy) hn, fun hi _ => absurd (hi.1 hy) hn⟩
        · refine ⟨fun hp => hfeas.1 (by rw [← ha]; exact h7.2 hp), fun _ => ?_, fun _ he => ?_⟩
          · show c.g.cut s.part ≤ _
            omega
          · rcases hlt with hlt | hlt
            · have he : c.g.cut s.part = _ := he
              omega
            · exact le_of_lt hlt.2
  · rw [if_neg ha]
    have hne : p.runs ≠ [] := by
      intro h0
      obtain ⟨h5, h6⟩ := h.start h0
      rw [accepts_iff, h5, h6] at ha
      have := hcut s.part
      apply ha
      cases feas
      · exact Or.inr ⟨rfl, Or.inl this⟩
      · exact Or.inl ⟨rfl, rfl⟩
    obtain ⟨h8, h5, h6, h7⟩ := h.best hne
    refine ⟨_, s, rfl, rfl, ?_, ?_, fun h => (by cases h), fun _ => ⟨List.mem_cons_of_mem _ h8, h5, h6, h7⟩, ?_⟩
    · intro x hx
      rcases List.mem_cons.1 hx with rfl | hx
      · exact hb
      · exact h.bip x hx
    · intro x hx
      rcases List.mem_cons.1 hx with rfl | hx
      · exact hprod
      · exact h.origin x hx
    · intro x hx
      rcases List.mem_cons.1 hx with rfl | hx
      · show AsGood c.g c.maxW rd p.best.part s.part
        rw [accepts_iff, h5, h6] at ha
        have hf : Feasible c.g c.maxW s.part → Feasible c.g c.maxW p.best.part := by
          intro hs
          by_contra hn
          exact ha (Or.inl ⟨by rw [← Bool.not_eq_true]; exact fun hb => hn (h7.1 hb), hfeas.2 hs⟩)
        have hrest : (Feasible c.g c.maxW p.best.part ↔ Feasible c.g c.maxW s.part) →
            ¬ (c.g.cut s.part < c.g.cut p.best.part ∨ (c.g.cut s.part = c.g.cut p.best.part ∧
              imbalance rd (FlatBip.total c.g) (blockW c.g s.part) < imbalance rd (FlatBip.total c.g) (blockW c.g p.best.part))) :=
          fun hi hlt => ha (Or.inr ⟨Bool.eq_iff_iff.2 (h7.trans (hi.trans hfeas.symm)), hlt⟩)
        refine ⟨hf, fun hi => ?_, fun hi he => ?_⟩
        · have := hrest hi; omega
        · have := hrest hi
          by_contra hlt
          exact this (Or.inr ⟨he.symm, lt_of_not_ge hlt⟩)
      · exact h.good x hx

/-- The bipartitioner is run whatever the statistics say. -/
def Forced (pc : PoolCfg) (r : Nat) : Prop := (r : Int) < pc.minNonAdaptive ∨ pc.adaptive = false

theorem fold_ok {c : Cfg} {pc : PoolCfg} {rd : ℚ → ℚ} {cap inf : Nat} (hg : InitialFM.Valid c.g) (hcap : c.g.n ≤ cap) (hinf : 0 < inf)
    (hcut : ∀ q, c.g.cut q < c.maxKey) {o : Nat → Nat → RunOracle} (ho : ∀ r i, (o r i).Ok c.g.n) (r : Nat) :
    ∀ (l : List (Kind × Nat)) (p : Pool), (∀ x ∈ l, pc.kinds[x.2]? = some x.1) → PInv c pc rd cap inf p →
    ∃ p', l.foldlM (fun p x => if p.runs? pc r x.2 (o r x.2).likely then run? c pc rd cap inf x.2 x.1 (o r x.2) p else some p) p = some p' ∧
      PInv c pc rd cap inf p' ∧ ∀ i, runsOf i p.runs ≤ runsOf i p'.runs ∧
      runsOf i p'.runs ≤ runsOf i p.runs + l.countP (fun x => x.2 = i) ∧
      (Forced pc r → runsOf i p'.runs = runsOf i p.runs + l.countP (fun x => x.2 = i))
  | [], p, _, h => ⟨p, rfl, h, fun i => ⟨le_refl _, by simp, fun _ => by simp⟩⟩
  | x :: l, p, hl, h => by
    by_cases hr : p.runs? pc r x.2 (o r x.2).likely = true
    · obtain ⟨p1, s, h1, h2, h3⟩ := run_ok (rd := rd) hg hcap hinf hcut (hl x List.mem_cons_self) (ho r x.2) h
      obtain ⟨p2, h4, h5, h6⟩ := fold_ok hg hcap hinf hcut ho r l p1 (fun y hy => hl y (List.mem_cons_of_mem _ hy)) h3
      refine ⟨p2, by rw [List.foldlM_cons, if_pos hr, h1]; exact h4, h5, fun i => ?_⟩
      obtain ⟨h7, h8, h9⟩ := h6 i
      have h10 : runsOf i p1.runs = runsOf i p.runs + if x.2 = i then 1 else 0 := by
        rw [h2]; unfold runsOf; rw [List.countP_cons]; simp
      rw [List.countP_cons]
      simp only [decide_eq_true_eq]
      exact ⟨by omega, by omega, fun hf => by have := h9 hf; omega⟩
    · obtain ⟨p2, h4, h5, h6⟩ := fold_ok hg hcap hinf hcut ho r l p (fun y hy => hl y (List.mem_cons_of_mem _ hy)) h
      refine ⟨p2, by rw [List.foldlM_cons, if_neg hr]; exact h4, h5, fun i => ?_⟩
      obtain ⟨h7, h8, h9⟩ := h6 i
      rw [List.countP_cons]
      refine ⟨h7, by omega, fun hf => absurd ?_ hr⟩
      unfold Pool.runs?
      rcases hf with hf | hf <;> simp [hf]

theorem countP_zipIdx {α : Type} (i : Nat) : ∀ (l : List α) (k : Nat),
    (l.zipIdx k).countP (fun x => decide (x.2 = i)) = if k ≤ i ∧ i < k + l.length then 1 else 0
  | [], k => by simp
  | a :: l, k => by
    rw [List.zipIdx_cons, List.countP_cons, countP_zipIdx i l (k + 1)]
    simp only [decide_eq_true_eq, List.length_cons]
    split <;> split <;> split <;> omega

theorem pool_ok {c : Cfg} {pc : PoolCfg} {rd : ℚ → ℚ} {cap inf : Nat} (hg : InitialFM.Valid c.g) (hcap : c.g.n ≤ cap) (hinf : 0 < inf)
    (hcut : ∀ q, c.g.cut q < c.maxKey) {o : Nat → Nat → RunOracle} (ho : ∀ r i, (o r i).Ok c.g.n) (p : Pool) (h : PInv c pc rd cap inf p)
    (h0 : p.runs = []) : ∀ reps : Nat, ∃ p', (List.range reps).foldlM (repetition? c pc rd cap inf o) p = some p' ∧ PInv c pc rd cap inf p' ∧
      ∀ i, i < pc.kinds.length → runsOf i p'.runs ≤ reps ∧ ((min reps pc.minNonAdaptive.toNat : Nat)) ≤ runsOf i p'.runs ∧
        (pc.adaptive = false → runsOf i p'.runs = reps)
  | 0 => ⟨p, rfl, h, fun i _ => by rw [h0]; simp [runsOf]⟩
  | reps + 1 => by
    obtain ⟨p1, h1, h2, h3⟩ := pool_ok hg hcap hinf hcut ho p h h0 reps
    obtain ⟨p2, h4, h5, h6⟩ := fold_ok hg hcap hinf hcut ho reps pc.kinds.zipIdx p1 (fun x hx => by
      have := List.mem_zipIdx_iff_getElem?.1 hx; simpa using this) h2
    refine ⟨p2, ?_, h5, fun i hi => ?_⟩
    · rw [List.range_succ, List.foldlM_append, h1]
      simp only [Option.bind_eq_bind, Option.bind_some, List.foldlM_cons, List.foldlM_nil]
      unfold repetition?
      rw [h4]; rfl
    · obtain ⟨h7, h8, h9⟩ := h3 i hi
      obtain ⟨h10, h11, h12⟩ := h6 i
      rw [countP_zipIdx, if_pos ⟨by omega, by omega⟩] at h11 h12
      refine ⟨by omega, ?_, fun ha => ?_⟩
      · by_cases hm : (reps : Int) < pc.minNonAdaptive
        · have := h12 (Or.inl hm); omega
        · omega
      · have := h12 (Or.inr ha); have := h9 ha; omega

end Verif.InitialPool
