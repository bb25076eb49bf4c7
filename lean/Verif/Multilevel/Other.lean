import Verif.Multilevel.Deep
import Mathlib.Data.Finset.Card

/-!
# Lemmas: direct k-way partitioning and recursive bipartitioning
-/

namespace Verif.Multilevel
open Verif.Math Verif.Subgraph Verif.Subgraph.Props Verif.Blocks Verif.Blocks.Props Verif.Limits Verif.Metrics

variable {cfg : Cfg} {e : Env}

/-- The levels of the coarsener; the total weight does not matter. -/
inductive Levels (g : LGraph) : List (LGraph × (Nat → Nat)) → LGraph → Prop
  | nil : g.WF → g.Positive → Levels g [] g
  | cons {stack : List (LGraph × (Nat → Nat))} {cur : LGraph} {f : Nat → Nat} {c : LGraph} : Levels g stack cur → c.WF → c.Positive →
    (∀ u, u < cur.length → f u < c.length) → Levels g ((cur, f) :: stack) c

theorem Levels.wf {g : LGraph} {stack : List (LGraph × (Nat → Nat))} {cur : LGraph} (h : Levels g stack cur) :
    cur.WF ∧ cur.Positive := by
  cases h with
  | nil h1 h2 => exact ⟨h1, h2⟩
  | cons _ h1 h2 _ => exact ⟨h1, h2⟩

theorem plainCoarsen_spec (he : e.Ok) (key : Key) (threshold : Nat) {g : LGraph} : ∀ (fuel : Nat) (cur : LGraph)
    (stack : List (LGraph × (Nat → Nat))), Levels g stack cur → cur.length + 1 ≤ fuel →
    ∃ r, plainCoarsen? e key threshold fuel cur stack = some r ∧ Levels g r.2 r.1 := by
  intro fuel
  induction fuel with
  | zero => intro cur stack _ hf; omega
  | succ fuel ih =>
    intro cur stack hl hf
    rw [plainCoarsen?]
    split
    · have hl' : Levels g (pushed (e.coarsen (stack.length :: key) cur) cur stack)
          (coarse (e.coarsen (stack.length :: key) cur) cur) := by
        unfold pushed coarse
        cases hr : (e.coarsen (stack.length :: key) cur).1 with
        | none => exact hl
        | some x =>
          obtain ⟨a1, a2, _, a4, _⟩ := he.coarsen (stack.length :: key) cur x.1 x.2 hr hl.wf.1 hl.wf.2
          exact Levels.cons hl a1 a2 a4
      dsimp only
      split
      · rename_i hs
        obtain ⟨c, f, b1, b2⟩ := he.shrunk _ _ hs
        refine ih _ _ hl' ?_
        unfold coarse
        rw [b1]
        dsimp only
        omega
      · exact ⟨_, rfl, hl'⟩
    · exact ⟨_, rfl, hl⟩

/-! ## Direct k-way partitioning -/

theorem kwayUncoarsen_spec (he : e.Ok) {g : LGraph} {stack : List (LGraph × (Nat → Nat))} {cur : LGraph} (hl : Levels g stack cur) :
    ∀ p : PG, p.g = cur → p.Valid → RefinedWith e cfg.input p →
    (kwayUncoarsen cfg e stack p).g = g ∧ (kwayUncoarsen cfg e stack p).k = p.k ∧ (kwayUncoarsen cfg e stack p).Valid ∧
      RefinedWith e cfg.input (kwayUncoarsen cfg e stack p) := by
  induction hl with
  | nil _ _ => exact fun p hp hv hr => ⟨hp, rfl, hv, hr⟩
  | @cons stack cur f c hl _ _ hf ih =>
    intro p hp hv _
    rw [kwayUncoarsen]
    have hv' : (⟨cur, p.k, fun u => p.part (f u)⟩ : PG).Valid := fun u hu => hv _ (by rw [hp]; exact hf u hu)
    obtain ⟨a1, a2, a3, a4⟩ := ih (refined e [stack.length] ⟨cur, p.k, fun u => p.part (f u)⟩ cfg.input) rfl
      (he.refine _ _ _ hv') ⟨[stack.length], ⟨cur, p.k, fun u => p.part (f u)⟩, rfl, rfl, hv', rfl⟩
    exact ⟨a1, a2, a3, a4⟩

theorem kway_spec (he : e.Ok) (hk2 : 2 ≤ cfg.k) (hk31 : cfg.k < 2 ^ 31) (hml : cfg.minLevels ≤ 30)
    (hth : 2 ^ cfg.minLevels * cfg.threads ≤ 2 ^ 32) {g : LGraph} (hwf : g.WF) (hp : g.Positive) {fuel : Nat}
    (hf : g.length + 1 ≤ fuel) :
    ∃ r, kway? cfg e fuel g = some r ∧ r.1.g = g ∧ r.1.k = cfg.k ∧ r.1.Valid ∧ RefinedWith e cfg.input r.1 ∧
      (e.MemOk → r.2 = true) := by
  obtain ⟨c, c1, c2⟩ := plainCoarsen_spec he [] (cfg.k * cfg.limit % 2 ^ 32) fuel g [] (Levels.nil hwf hp) hf
  have hv : (⟨c.1, 2, e.bipart [] c.1⟩ : PG).Valid := fun u _ => he.bipart _ _ _
  obtain ⟨r, r1, r2⟩ := extend_spec he hk31 hml hth false [] ⟨resize c.1.length cfg.k c.1.m true true, true⟩
    (p := ⟨c.1, 2, e.bipart [] c.1⟩) c2.wf.1 c2.wf.2 hv (desired := cfg.k) ⟨1, rfl, hk2, Or.inl rfl⟩
  have hrg : r.1.g = c.1 := r2.g
  obtain ⟨a1, a2, a3, a4⟩ := kwayUncoarsen_spec (cfg := cfg) he c2 (refined e [c.2.length] r.1 cfg.input) hrg
    (he.refine _ _ _ r2.valid) ⟨[c.2.length], r.1, rfl, rfl, r2.valid, rfl⟩
  refine ⟨(kwayUncoarsen cfg e c.2 (refined e [c.2.length] r.1 cfg.input), r.2.ok), ?_, a1, a2.trans r2.k, a3, a4, ?_⟩
  · unfold kway?
    rw [c1]
    simp only [Option.bind_eq_bind, Option.bind_some]
    rw [r1]
    rfl
  · intro hm
    refine r2.ok hm rfl (Or.inr ⟨le_refl _, le_refl _, ?_, ?_⟩)
    · intro hw
      show c.1.length + cfg.k ≤ if (if true = true then c.1.length else 0) = 0 then 0 else (if true = true then c.1.length else 0) + cfg.k
      rw [if_pos rfl]
      split
      · rename_i h0
        have : c.1 = [] := List.length_eq_zero_iff.1 h0
        change c.1.nodeWeighted = true at hw
        rw [this] at hw
        exact absurd hw (by decide)
      · exact le_refl _
    · intro _
      show c.1.m ≤ if true = true then c.1.m else 0
      rw [if_pos rfl]

/-! ## Recursive bipartitioning -/

theorem _root_.Verif.Subgraph.IsInduced.surj {g : LGraph} {part : Nat → Nat} {b : Nat} {mapping : Nat → Nat} {sub : LGraph}
    (h : IsInduced g part b mapping sub) {i : Nat} (hi : i < sub.length) : ∃ u, u < g.length ∧ part u = b ∧ mapping u = i := by
  have hcard : ((Finset.range g.length).filter (part · = b)).card = sub.length := by
    rw [h.size]
    rfl
  have himg : ((Finset.range g.length).filter (part · = b)).image mapping = Finset.range sub.length := by
    apply Finset.eq_of_subset_of_card_le
    · intro x hx
      rw [Finset.mem_image] at hx
      obtain ⟨u, hu, rfl⟩ := hx
      rw [Finset.mem_filter, Finset.mem_range] at hu
      exact Finset.mem_range.2 (h.lt u hu.1 hu.2)
    · rw [Finset.card_range, Finset.card_image_of_injOn, hcard]
      intro u hu v hv huv
      simp only [Finset.coe_filter, Finset.mem_range, Set.mem_ofPred_eq] at hu hv
      exact h.inj u v hu.1 hv.1 hu.2 hv.2 huv
  have : i ∈ ((Finset.range g.length).filter (part · = b)).image mapping := by rw [himg]; exact Finset.mem_range.2 hi
  rw [Finset.mem_image] at this
  obtain ⟨u, hu, rfl⟩ := this
  rw [Finset.mem_filter, Finset.mem_range] at hu
  exact ⟨u, hu.1, hu.2, rfl⟩

theorem _root_.Verif.Subgraph.IsInduced.wf {g : LGraph} {part : Nat → Nat} {b : Nat} {mapping : Nat → Nat} {sub : LGraph}
    (h : IsInduced g part b mapping sub) (hwf : g.WF) (hp : g.Positive) : sub.WF ∧ sub.Positive := by
  have hrow : ∀ r ∈ sub, ∃ u, ∃ hu : u < g.length, part u = b ∧
      r = ((g[u]).1, (((g[u]).2).filter fun e => part e.1 = b).map fun e => (mapping e.1, e.2)) := by
    intro r hr
    obtain ⟨i, hi, rfl⟩ := List.getElem_of_mem hr
    obtain ⟨u, hu, hb, rfl⟩ := h.surj hi
    have h1 := h.row u hu hb
    rw [List.getElem?_eq_getElem hi] at h1
    refine ⟨u, hu, hb, ?_⟩
    rw [Option.some.inj h1]
    unfold LGraph.w LGraph.adj
    rw [List.getD_eq_getElem?_getD, List.getElem?_eq_getElem hu]
    rfl
  constructor
  · intro r hr x hx
    obtain ⟨u, hu, hb, rfl⟩ := hrow r hr
    rw [List.mem_map] at hx
    obtain ⟨y, hy, rfl⟩ := hx
    rw [List.mem_filter] at hy
    exact h.lt y.1 (hwf _ (List.getElem_mem hu) _ hy.1) (by simpa using hy.2)
  · intro r hr
    obtain ⟨u, hu, hb, rfl⟩ := hrow r hr
    obtain ⟨p1, p2⟩ := hp _ (List.getElem_mem hu)
    refine ⟨p1, ?_⟩
    intro x hx
    rw [List.mem_map] at hx
    obtain ⟨y, hy, rfl⟩ := hx
    rw [List.mem_filter] at hy
    exact p2 y hy.1

theorem _root_.Verif.Subgraph.IsInduced.length_le {g : LGraph} {part : Nat → Nat} {b : Nat} {mapping : Nat → Nat} {sub : LGraph}
    (h : IsInduced g part b mapping sub) : sub.length ≤ g.length := by
  rw [h.size]
  calc _ ≤ (List.range g.length).length := List.length_filter_le _ _
    _ = g.length := List.length_range

theorem rbUncoarsen_spec (he : e.Ok) (key : Key) (ctx : Option PCtx) {g : LGraph} {stack : List (LGraph × (Nat → Nat))} {cur : LGraph}
    (hl : Levels g stack cur) : ∀ p : PG, p.g = cur → p.Valid →
    (rbUncoarsen e key ctx stack p).g = g ∧ (rbUncoarsen e key ctx stack p).k = p.k ∧ (rbUncoarsen e key ctx stack p).Valid := by
  induction hl with
  | nil _ _ => exact fun p hp hv => ⟨hp, rfl, he.refine2 _ _ _ hv⟩
  | @cons stack cur f c hl _ _ hf ih =>
    intro p hp hv
    rw [rbUncoarsen]
    exact ih ⟨cur, p.k, fun u => e.refine2 ((stack.length + 1) :: key) p ctx (f u)⟩ rfl
      fun u hu => he.refine2 _ _ _ hv _ (by rw [hp]; exact hf u hu)

theorem rbBipartition_spec (he : e.Ok) {fuel : Nat} (key : Key) {g : LGraph} (hwf : g.WF) (hp : g.Positive)
    (hf : g.length + 1 ≤ fuel) (block currentK : Nat) :
    ∃ r, rbBipartition? cfg e fuel key g block currentK = some r ∧ r.g = g ∧ r.k = 2 ∧ r.Valid := by
  obtain ⟨c, c1, c2⟩ := plainCoarsen_spec he key (2 * cfg.limit % 2 ^ 32) fuel g [] (Levels.nil hwf hp) hf
  obtain ⟨a1, a2, a3⟩ := rbUncoarsen_spec he key (createTwoway? cfg.rd cfg.pow cfg.input cfg.adaptive block currentK (info g)) c2
    ⟨c.1, 2, fun u => e.bip key c.1 block currentK u⟩ rfl fun u _ => he.bip _ _ _ _ _
  refine ⟨_, ?_, a1, a2, a3⟩
  unfold rbBipartition?
  rw [c1]
  rfl

theorem finalKRoot_two {k : Nat} (hk : k < 2 ^ 31) (h2 : 2 ≤ k) {b : Nat} (hb : b < 2) :
    finalKRoot? b 2 k = some (treeLabel k 1 b) := finalKRoot_eq (l := 1) hk h2 hb

theorem range2_mapM (f : Nat → Option Nat) (a b : Nat) (ha : f 0 = some a) (hb : f 1 = some b) :
    (List.range 2).mapM f = some [a, b] := by
  show List.mapM f [0, 1] = _
  simp [ha, hb]

theorem treeLabel_two (x b : Nat) : treeLabel (2 * x) 1 b = x := by
  unfold treeLabel treeLabel
  split <;> omega

theorem rbRec_spec (he : e.Ok) {K : Nat} (hK : cfg.k = 2 ^ K) (hk31 : cfg.k < 2 ^ 31) {fuel : Nat} : ∀ (depth d : Nat) (key : Key)
    (g : LGraph) (block : Nat), g.WF → g.Positive → g.length + 1 ≤ fuel → d < K → K - d ≤ depth →
    ∃ r, rbRec? cfg e fuel depth key g block (2 ^ d) = some r ∧ r.1.g = g ∧ r.1.k = 2 ^ (K - d) ∧ r.1.Valid ∧ r.2 = true := by
  intro depth
  induction depth with
  | zero => intro d key g block _ _ _ hd hdep; omega
  | succ depth ih =>
    intro d key g block hwf hp hf hd hdep
    obtain ⟨p, p1, p2, p3, p4⟩ := rbBipartition_spec (cfg := cfg) he key hwf hp hf block (2 ^ d)
    have hK31 : K < 31 := (Nat.pow_lt_pow_iff_right (a := 2) (by decide)).1 (by rw [← hK]; exact hk31)
    have hmod : 2 ^ d * 2 % 2 ^ 32 = 2 ^ (d + 1) := by
      rw [← Nat.pow_succ]
      exact Nat.mod_eq_of_lt (Nat.pow_lt_pow_right (by decide) (by omega))
    rw [rbRec?, p1]
    simp only [Option.bind_eq_bind, Option.bind_some]
    rw [hmod]
    split
    · rename_i hlt
      rw [hK] at hlt
      have hdK : d + 1 < K := (Nat.pow_lt_pow_iff_right (by decide)).1 hlt
      obtain ⟨K', hK'⟩ : ∃ K', K = K' + 1 := ⟨K - 1, by omega⟩
      have hk2 : cfg.k = 2 * 2 ^ K' := by rw [hK, hK', Nat.pow_succ, Nat.mul_comm]
      have hfin : ∀ b, b < 2 → finalKRoot? b 2 cfg.k = some (2 ^ K') := by
        intro b hb
        rw [finalKRoot_two hk31 (by rw [hk2]; have := Nat.two_pow_pos K'; omega) hb, hk2, treeLabel_two]
      have hpad : ∀ b, b < 2 → finalKRoot? b 2 2 = some 1 := by
        intro b hb
        rw [finalKRoot_two (by decide) (by decide) hb, show (2:Nat) = 2 * 1 from rfl, treeLabel_two 1]
      rw [p3, range2_mapM (fun b => finalKRoot? b 2 2) 1 1 (hpad 0 (by decide)) (hpad 1 (by decide)), Option.bind_some]
      have hsched := he.sched key p p4
      rw [p2, p3] at hsched
      have hpart : ∀ u, u < g.length → p.part u < 2 := by
        intro u hu
        have := p4 u (by rw [p2]; exact hu)
        rw [p3] at this
        exact this
      have hx := C30_extract_subgraphs hp hpart (pad := fun b => [1, 1].getD b 0)
        (by intro b hb; interval_cases b <;> decide) hsched
        ⟨e.cells key, resize g.length 2 g.m g.nodeWeighted g.edgeWeighted, true⟩ (e.slot0 key)
      generalize hr : extractAll g p.part (fun b => [1, 1].getD b 0) 2 (e.sched key p)
        ⟨e.cells key, resize g.length 2 g.m g.nodeWeighted g.edgeWeighted, true⟩ (e.slot0 key) = r at hx ⊢
      obtain ⟨x1, _, x3⟩ := hx
      have hroom := room_resize g 2
      have hok : r.mem.ok = true := x3 rfl hroom.1 hroom.2.2.1 hroom.2.1 hroom.2.2.2
      have i0 := x1 0 (by decide)
      have i1 := x1 1 (by decide)
      obtain ⟨q0, a1, a2, a3, a4, a5⟩ := ih (d + 1) (0 :: key) _ (2 * block) (i0.wf hwf hp).1 (i0.wf hwf hp).2
        (by have := i0.length_le; omega) hdK (by omega)
      obtain ⟨q1, b1, b2, b3, b4, b5⟩ := ih (d + 1) (1 :: key) _ (2 * block + 1) (i1.wf hwf hp).1 (i1.wf hwf hp).2
        (by have := i1.length_le; omega) hdK (by omega)
      rw [a1, Option.bind_some, b1, Option.bind_some, range2_mapM (fun b => finalKRoot? b 2 cfg.k) _ _ (hfin 0 (by decide)) (hfin 1 (by decide)), Option.bind_some]
      have hkk : q0.1.k + q1.1.k = 2 * 2 ^ (K - (d + 1)) := by rw [a3, b3]; omega
      have hkk2 : 2 * 2 ^ (K - (d + 1)) = 2 ^ (K - d) := by
        rw [show K - d = K - (d + 1) + 1 by omega, Nat.pow_succ, Nat.mul_comm]
      refine ⟨_, rfl, rfl, hkk.trans hkk2, ?_, ?_⟩
      · intro u hu
        change u < g.length at hu
        dsimp only
        rw [hkk]
        obtain ⟨c1, _⟩ := C30_copy_back 2 (2 * 2 ^ (K - (d + 1))) cfg.k (fun b => [2 ^ K', 2 ^ K'].getD b 0) p.part r.mapping
          (fun b => if b = 0 then (List.range q0.1.g.length).map q0.1.part else (List.range q1.1.g.length).map q1.1.part) g.length
          hpart (e.order key g.length) (he.order key g.length)
        rw [c1 u hu]
        have hsub : ∀ b, b < 2 → (if 2 * 2 ^ (K - (d + 1)) = cfg.k then [2 ^ K', 2 ^ K'].getD b 0 else 2 * 2 ^ (K - (d + 1)) / 2)
            = 2 ^ (K - (d + 1)) := by
          intro b hb
          split
          · rename_i heq
            rw [hk2] at heq
            have : 2 ^ (K - (d + 1)) = 2 ^ K' := by omega
            rw [this]
            interval_cases b <;> rfl
          · omega
        have hpu := hpart u hu
        have hget : ∀ (q : PG) (sub : LGraph), q.g = sub → q.k = 2 ^ (K - (d + 1)) → q.Valid → r.mapping u < sub.length →
            ((List.range q.g.length).map q.part).getD (r.mapping u) 0 < 2 ^ (K - (d + 1)) := by
          intro q sub h1 h2 h3 h4
          rw [List.getD_eq_getElem?_getD, List.getElem?_map, List.getElem?_range (by rw [h1]; exact h4)]
          have := h3 (r.mapping u) (by rw [h1]; exact h4)
          rw [h2] at this
          exact this
        obtain hb | hb : p.part u = 0 ∨ p.part u = 1 := by omega
        · rw [hb]
          have := hget q0.1 _ a2 a3 a4 (i0.lt u hu hb)
          simp only [List.range_zero, List.map_nil, List.sum_nil, if_true]
          omega
        · rw [hb]
          have := hget q1.1 _ b2 b3 b4 (i1.lt u hu hb)
          have h0 := hsub 0 (by decide)
          simp only [List.range_one, List.map_cons, List.map_nil, List.sum_cons, List.sum_nil, if_neg (by decide : ¬ (1 : Nat) = 0)]
          rw [h0]
          omega
      · show (r.mem.ok && q0.2 && q1.2) = true
        rw [hok, a5, b5]
        rfl
    · rename_i hlt
      rw [hK] at hlt
      have hdK : K = d + 1 := by
        have : ¬ d + 1 < K := fun h0 => hlt (Nat.pow_lt_pow_right (by decide) h0)
        omega
      refine ⟨_, rfl, p2, ?_, p4, rfl⟩
      refine p3.trans ?_
      simp [show K - d = 1 by omega]

end Verif.Multilevel
