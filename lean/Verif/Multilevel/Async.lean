import Verif.Multilevel.Lemmas

/-!
# Lemmas: initial partitioning with asynchronous copies
-/

namespace Verif.Multilevel
open Verif.Math Verif.Subgraph Verif.Subgraph.Props Verif.Blocks Verif.Blocks.Props Verif.Limits Verif.Metrics

/-- A partition of `g` with an allowed number of blocks. -/
structure POk (cfg : Cfg) (g : LGraph) (p : PG) : Prop where
  g : p.g = g
  valid : p.Valid
  step : Step cfg.k p.k

variable {cfg : Cfg} {e : Env} {W : Int}

theorem coarse_ok (h : Hyp cfg e W) (key : Key) {g : LGraph} (hg : GOk W g) :
    GOk W (coarse (e.coarsen key g) g) ∧ (coarse (e.coarsen key g) g).length ≤ g.length ∧
      (coarse (e.coarsen key g) g).m ≤ g.m ∧
      ((e.coarsen key g).2 = true → (coarse (e.coarsen key g) g).length < g.length) := by
  unfold coarse
  cases hc : (e.coarsen key g).1 with
  | none =>
    refine ⟨hg, le_refl _, le_refl _, ?_⟩
    intro hs
    obtain ⟨c, f, h1, _⟩ := h.env.shrunk key g hs
    rw [hc] at h1
    cases h1
  | some x =>
    obtain ⟨c, f⟩ := x
    obtain ⟨a1, a2, a3, a4, a5, a6⟩ := h.env.coarsen key g c f hc hg.wf hg.pos
    refine ⟨⟨a1, a2, a3.trans hg.total, lt_of_le_of_lt a5 hg.small⟩, a5, a6, ?_⟩
    intro hs
    obtain ⟨c', f', h1, h2⟩ := h.env.shrunk key g hs
    rw [hc] at h1
    cases h1
    exact h2

theorem uncoarsen_ok (h : Hyp cfg e W) (key : Key) {g : LGraph} (hg : GOk W g) {q : PG}
    (hq : POk cfg (coarse (e.coarsen key g) g) q) :
    POk cfg g (uncoarsen (e.coarsen key g) g q) ∧ (uncoarsen (e.coarsen key g) g q).k = q.k := by
  obtain ⟨h1, h2, h3⟩ := hq
  unfold coarse at h1
  unfold uncoarsen
  cases hc : (e.coarsen key g).1 with
  | none =>
    rw [hc] at h1
    exact ⟨⟨h1, h2, h3⟩, rfl⟩
  | some x =>
    obtain ⟨c, f⟩ := x
    rw [hc] at h1
    obtain ⟨a1, a2, a3, a4, a5, a6⟩ := h.env.coarsen key g c f hc hg.wf hg.pos
    refine ⟨⟨rfl, ?_, h3⟩, rfl⟩
    intro u hu
    exact h2 _ (by rw [h1]; exact a4 u hu)

theorem refined_ok (h : Hyp cfg e W) (key : Key) (ctx : PCtx) {g : LGraph} {p : PG} (hp : POk cfg g p) :
    POk cfg g (refined e key p ctx) :=
  ⟨hp.g, fun u hu => h.env.refine key p ctx hp.valid u hu, hp.step⟩

theorem kway_defined (h : Hyp cfg e W) {g : LGraph} (hg : GOk W g) {p : PG} (hp : POk cfg g p) :
    ∃ c, createKway? cfg.rd cfg.input (info p.g) p.k = some c :=
  createKway_defined h.rd h.limits h.k31 hp.step (by rw [hp.g]; exact hg.total)

/-- A smaller allowed number of blocks can be split into a larger one. -/
theorem Step.splits {k x y : Nat} (hx : Step k x) (hy : Step k y) (hlt : x < y) : Splits k x y := by
  obtain ⟨x1, x2, x3⟩ := hx
  obtain ⟨y1, y2, y3⟩ := hy
  obtain ⟨l, rfl⟩ : ∃ l, x = 2 ^ l := by
    rcases x3 with x3 | x3
    · omega
    · exact x3
  refine ⟨l, rfl, x2, ?_⟩
  rcases y3 with y3 | ⟨j, rfl⟩
  · exact Or.inl y3
  · exact Or.inr ⟨⟨j, le_of_lt ((Nat.pow_lt_pow_iff_right (by decide)).1 hlt), rfl⟩, y2⟩

theorem kForN_step (h : Hyp cfg e W) {n : Nat} (hn : n < 2 ^ 31) :
    ∃ x, kForN? n cfg.limit cfg.k = some x ∧ Step cfg.k x := by
  obtain ⟨x, h1, h2, h3, h4⟩ := C44_k_for_n_range n cfg.limit cfg.k h.limit h.k2 hn
  exact ⟨x, h1, h2, h3, h4⟩

theorem step_two (h : Hyp cfg e W) : Step cfg.k 2 := ⟨le_refl _, h.k2, Or.inr ⟨1, rfl⟩⟩

theorem room_resize (g : LGraph) (k : Nat) : Room (resize g.length k g.m g.nodeWeighted g.edgeWeighted) g k := by
  refine ⟨le_refl _, le_refl _, ?_, ?_⟩
  · intro hw
    show g.length + k ≤ if (if g.nodeWeighted = true then g.length else 0) = 0 then 0 else
      (if g.nodeWeighted = true then g.length else 0) + k
    rw [if_pos hw]
    split
    · rename_i h0
      exfalso
      have : g = [] := List.length_eq_zero_iff.1 h0
      rw [this] at hw
      exact absurd hw (by decide)
    · exact le_refl _
  · intro hw
    show g.m ≤ if g.edgeWeighted = true then g.m else 0
    rw [if_pos hw]

/-- One copy: the result has exactly the desired number of blocks. -/
theorem finishCopy_spec (h : Hyp cfg e W) (key : Key) {g : LGraph} (hg : GOk W g) {q : PG × Bool}
    (hq : POk cfg (coarse (e.coarsen key g) g) q.1) (hok : e.MemOk → q.2 = true) {desired threads : Nat}
    (hd : Step cfg.k desired) (hqd : q.1.k ≤ desired) (hth : 2 ^ cfg.minLevels * threads ≤ 2 ^ 32) (key' : Key) :
    ∃ x, finishCopy? cfg e key' (e.coarsen key g) g q desired threads = some x ∧ POk cfg g x.1 ∧ x.1.k = desired ∧
      createKway? cfg.rd cfg.input (info g) desired = some x.2.1 ∧ (e.MemOk → x.2.2 = true) := by
  obtain ⟨hu, huk⟩ := uncoarsen_ok h key hg hq
  obtain ⟨ctx, hctx⟩ := kway_defined h hg hu
  unfold finishCopy?
  dsimp only
  rw [hctx, Option.bind_eq_bind, Option.bind_some]
  have hr := refined_ok h key' ctx hu
  have hrk : (refined e key' (uncoarsen (e.coarsen key g) g q.1) ctx).k = q.1.k := huk
  split
  · rename_i hlt
    obtain ⟨r, hr1, hr2⟩ := extend_spec h.env h.k31 h.levels hth false key'
      ⟨resize g.length cfg.k g.m g.nodeWeighted g.edgeWeighted, true⟩ (by rw [hr.g]; exact hg.wf)
      (by rw [hr.g]; exact hg.pos) hr.valid (hr.step.splits hd hlt)
    have hx : POk cfg g r.1 := ⟨hr2.g.trans hr.g, hr2.valid, by rw [hr2.k]; exact hd⟩
    obtain ⟨ctx', hctx'⟩ := kway_defined h hg hx
    unfold extendLocal?
    rw [hr.g, hr1]
    simp only [Option.bind_eq_bind, Option.bind_some]
    rw [hctx', Option.bind_some]
    refine ⟨_, rfl, hx, hr2.k, ?_, ?_⟩
    · rw [hx.g, hr2.k] at hctx'
      exact hctx'
    · intro hm
      show (q.2 && r.2.ok) = true
      rw [hok hm, Bool.true_and]
      exact hr2.ok hm rfl (Or.inr (by rw [hr.g]; exact room_resize g cfg.k))
  · rename_i hlt
    have hke : q.1.k = desired := by omega
    refine ⟨_, rfl, hr, hrk.trans hke, ?_, hok⟩
    rw [hu.g, huk, hke] at hctx
    exact hctx

/-! ## Numbers of copies -/

theorem numCopies_pow {n c : Nat} (hc : 1 ≤ c) (conv : Bool) (a : Nat) :
    ∃ b, b ≤ a ∧ numCopies? n c conv (2 ^ a) = some (2 ^ b) ∧ (conv = true ∨ n = 0 → b = a) := by
  unfold numCopies?
  have h0 := Nat.two_pow_pos a
  rw [if_neg (by omega)]
  split
  · exact ⟨a, le_refl _, rfl, fun _ => rfl⟩
  · rename_i hcn
    rw [if_neg (by omega)]
    have hcn' : ¬ (conv = true ∨ n = 0) := by
      rintro (h | h)
      · exact hcn (Or.inl h)
      · exact hcn (Or.inr (by omega))
    dsimp only
    split
    · exact ⟨0, Nat.zero_le _, rfl, fun h => absurd h hcn'⟩
    · rename_i hf
      have hle : ceilLogRatio n c 32 ≤ a := (Nat.pow_le_pow_iff_right (by decide)).1 (by omega : 2 ^ ceilLogRatio n c 32 ≤ 2 ^ a)
      refine ⟨a - ceilLogRatio n c 32, Nat.sub_le _ _, ?_, fun h => absurd h hcn'⟩
      rw [Nat.pow_div hle (by decide)]

/-! ## Selecting the best copy -/

theorem selectLoop_index (limits : List Int) : ∀ (ps : List PG) (i : Nat) (b : Best),
    (selectLoop limits ps i b).index = b.index ∨
      i ≤ (selectLoop limits ps i b).index ∧ (selectLoop limits ps i b).index < i + ps.length := by
  intro ps
  induction ps with
  | nil => intro i b; exact Or.inl rfl
  | cons p ps ih =>
    intro i b
    rw [selectLoop, List.length_cons]
    split
    · rcases ih (i + 1) ⟨i, edgeCut p, isFeasible p limits⟩ with h | h
      · right; rw [h]; dsimp only; omega
      · right; omega
    · rcases ih (i + 1) b with h | h
      · left; exact h
      · right; omega

theorem selectBest_lt (mx : Int) (limits : List Int) {ps : List PG} (h : ps ≠ []) : selectBest mx limits ps < ps.length := by
  have hl := List.length_pos_iff.2 h
  unfold selectBest
  rcases selectLoop_index limits ps 0 ⟨0, mx, false⟩ with h1 | h1
  · rw [h1]; exact hl
  · omega

theorem mapM_exists {α β : Type} {f : α → Option β} {P : α → β → Prop} : ∀ {l : List α}, (∀ x ∈ l, ∃ y, f x = some y ∧ P x y) →
    ∃ ys, l.mapM f = some ys ∧ List.Forall₂ P l ys
  | [], _ => ⟨[], rfl, List.Forall₂.nil⟩
  | a :: l, h => by
    obtain ⟨y, h1, h2⟩ := h a List.mem_cons_self
    obtain ⟨ys, h3, h4⟩ := mapM_exists (l := l) fun x hx => h x (List.mem_cons_of_mem _ hx)
    refine ⟨y :: ys, ?_, List.Forall₂.cons h2 h4⟩
    rw [List.mapM_cons, h1, h3]
    rfl

theorem forall₂_mem {α β : Type} {P : α → β → Prop} {l : List α} {ys : List β} (h : List.Forall₂ P l ys) :
    ∀ y ∈ ys, ∃ x ∈ l, P x y := by
  induction h with
  | nil => intro y hy; cases hy
  | cons h1 _ ih =>
    intro y hy
    rcases List.mem_cons.1 hy with rfl | hy
    · exact ⟨_, List.mem_cons_self, h1⟩
    · obtain ⟨x, hx, hp⟩ := ih y hy
      exact ⟨x, List.mem_cons_of_mem _ hx, hp⟩

/-! ## The recursion -/

/-- The number of blocks that a group of `2^a` threads computes on a graph with `n` nodes. -/
def groupK (kn k a : Nat) : Nat := if a = 0 then 2 else min k (max kn (2 ^ a))

theorem groupK_step (h : Hyp cfg e W) {kn : Nat} (hkn : Step cfg.k kn) (a : Nat) : Step cfg.k (groupK kn cfg.k a) := by
  unfold groupK
  split
  · exact step_two h
  · rename_i ha
    obtain ⟨h1, h2, h3⟩ := hkn
    have hk := h.k2
    refine ⟨by omega, by omega, ?_⟩
    rcases h3 with h3 | ⟨l, h3⟩
    · left; omega
    · by_cases hc : cfg.k ≤ max kn (2 ^ a)
      · left; omega
      · right
        rcases Nat.le_total kn (2 ^ a) with h4 | h4
        · exact ⟨a, by omega⟩
        · exact ⟨l, by omega⟩

theorem groupK_mono (h : Hyp cfg e W) {kn kn' : Nat} (hkn' : Step cfg.k kn') (hle : kn ≤ kn') {a b : Nat} (hab : a ≤ b) :
    groupK kn cfg.k a ≤ groupK kn' cfg.k b := by
  have hk := h.k2
  have h1 := (groupK_step h hkn' b).1
  unfold groupK at h1 ⊢
  have := Nat.pow_le_pow_right (n := 2) (by decide) hab
  by_cases ha : a = 0
  · rw [if_pos ha]; exact h1
  · rw [if_neg ha, if_neg (by omega)]
    omega

theorem splitAndJoin_spec (h : Hyp cfg e W) : ∀ (fuel : Nat) (key : Key) (g : LGraph) (conv : Bool) (a : Nat),
    GOk W g → 2 ^ cfg.minLevels * 2 ^ a ≤ 2 ^ 32 → (conv = true ∧ 1 ≤ fuel ∨ g.length + 2 ≤ fuel) →
    ∃ r kn b, splitAndJoin? cfg e fuel key g conv (2 ^ a) = some r ∧ kForN? g.length cfg.limit cfg.k = some kn ∧
      b ≤ a ∧ POk cfg g r.1 ∧ r.1.k = groupK kn cfg.k b ∧ (e.MemOk → r.2 = true) := by
  intro fuel
  induction fuel with
  | zero => intro key g conv a _ _ hf; omega
  | succ fuel ih =>
    intro key g conv a hg hth hf
    obtain ⟨kn, hkn, hkns⟩ := kForN_step h hg.small
    obtain ⟨b, hba, hcp, hcb⟩ := numCopies_pow (n := g.length) h.limit conv a
    rw [splitAndJoin?]
    simp only [hcp, Option.bind_eq_bind, Option.bind_some]
    rw [Nat.pow_div hba (by decide)]
    have hall : ∀ i ∈ List.range (2 ^ b), ∃ y, (if 2 ^ (a - b) = 1 then some ((⟨g, 2, e.bipart (i :: key) g⟩ : PG), true)
        else (splitAndJoin? cfg e fuel (i :: key) (coarse (e.coarsen (i :: key) g) g) (!(e.coarsen (i :: key) g).2) (2 ^ (a - b))).bind
          fun q => (kForN? g.length cfg.limit cfg.k).bind fun kn =>
            (finishCopy? cfg e (i :: key) (e.coarsen (i :: key) g) g q (min cfg.k (max kn (2 ^ (a - b)))) (2 ^ (a - b))).bind
              fun x => some (x.1, x.2.2)) = some y ∧
        (POk cfg g y.1 ∧ y.1.k = groupK kn cfg.k (a - b) ∧ (e.MemOk → y.2 = true)) := by
      intro i _
      split
      · rename_i h1
        have hab : a - b = 0 := by
          by_contra hne
          have : 2 ^ 1 ≤ 2 ^ (a - b) := Nat.pow_le_pow_right (by decide) (by omega)
          omega
        refine ⟨_, rfl, ⟨rfl, fun u _ => h.env.bipart _ g u, step_two h⟩, ?_, fun _ => rfl⟩
        rw [hab]
        rfl
      · rename_i h1
        have hab : a - b ≠ 0 := by
          intro h0
          rw [h0] at h1
          exact h1 rfl
        obtain ⟨c1, c2, c3, c4⟩ := coarse_ok h (i :: key) hg
        have hth' : 2 ^ cfg.minLevels * 2 ^ (a - b) ≤ 2 ^ 32 :=
          le_trans (Nat.mul_le_mul_left _ (Nat.pow_le_pow_right (by decide) (Nat.sub_le _ _))) hth
        have hconv : conv = false ∧ g.length ≠ 0 := by
          refine ⟨?_, fun h0 => hab (by rw [hcb (Or.inr h0)]; omega)⟩
          cases hcv : conv with
          | false => rfl
          | true => exact absurd (by rw [hcb (Or.inl hcv)]; omega) hab
        obtain ⟨q, kn', b', q1, q2, q3, q4, q5, q6⟩ := ih (i :: key) (coarse (e.coarsen (i :: key) g) g) (!(e.coarsen (i :: key) g).2) (a - b) c1 hth'
          (by
            cases hs : (e.coarsen (i :: key) g).2 with
            | false =>
              left
              refine ⟨rfl, ?_⟩
              rcases hf with hf | hf
              · exact absurd hf.1 (by rw [hconv.1]; decide)
              · omega
            | true =>
              right
              have := c4 hs
              rcases hf with hf | hf
              · exact absurd hf.1 (by rw [hconv.1]; decide)
              · omega)
        have hkk : kn' ≤ kn := C44_k_for_n_monotone _ _ _ _ _ _ h.limit h.k2 hg.small c2 q2 hkn
        have hde : min cfg.k (max kn (2 ^ (a - b))) = groupK kn cfg.k (a - b) := by
          unfold groupK; rw [if_neg hab]
        obtain ⟨x, x1, x2, x3, _, x5⟩ := finishCopy_spec h (i :: key) hg q4 q6 (groupK_step h hkns (a - b))
          (by rw [q5]; exact groupK_mono h hkns hkk q3) hth' (i :: key)
        refine ⟨(x.1, x.2.2), ?_, x2, x3, x5⟩
        rw [q1, Option.bind_some, hkn, Option.bind_some, hde, x1, Option.bind_some]
    obtain ⟨ys, hys, hP⟩ := mapM_exists hall
    have hmem : ∀ y ∈ ys, POk cfg g y.1 ∧ y.1.k = groupK kn cfg.k (a - b) ∧ (e.MemOk → y.2 = true) := by
      intro y hy
      obtain ⟨_, _, hx⟩ := forall₂_mem hP y hy
      exact hx
    have hlen : ys.length = 2 ^ b := by rw [← hP.length_eq, List.length_range]
    have hlt : selectBest maxEdgeWeight cfg.input.maxBw (ys.map Prod.fst) < ys.length := by
      have := selectBest_lt maxEdgeWeight cfg.input.maxBw (ps := ys.map Prod.fst) (by
        intro h0
        have := congrArg List.length h0
        rw [List.length_map, hlen] at this
        have := Nat.two_pow_pos b
        simp at *)
      rwa [List.length_map] at this
    have hget := List.getElem?_eq_getElem hlt
    have hin := hmem _ (List.getElem_mem hlt)
    refine ⟨((ys[selectBest maxEdgeWeight cfg.input.maxBw (ys.map Prod.fst)]).1, ys.all (·.2)), kn, a - b, ?_, hkn,
      Nat.sub_le _ _, hin.1, hin.2.1, ?_⟩
    · rw [hys]
      rw [Option.bind_some, hget, Option.bind_some]
    · intro hm
      show ys.all (·.2) = true
      rw [List.all_eq_true]
      intro y hy
      exact (hmem y hy).2.2 hm

end Verif.Multilevel
