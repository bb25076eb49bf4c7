import Verif.Dist.ColoredLPRefine
import Verif.Dist.BatchedLP

/-!
# The new blocks that one process computes
-/

namespace Verif.Dist
open Verif Verif.Math

variable {dist : List Nat} {inp : Nat → Input} {g : Nat → DGraph} {P : Nat → Nat} {Wt : Nat → Int} {cfg : BatchConfig}

/-- A visit of a node of the chunk `fr, …, ub - 1`: the rating map is enumerated in some order, and the blocks that are read exist. -/
structure Visit.Ok (k fr ub : Nat) (v : Visit) : Prop where
  ge : fr ≤ v.node
  lt : v.node < ub
  order : ∀ l, (v.order l).Perm l
  view : ∀ view weights room, v.reads = .stale view weights room → ∀ l, view l < k

theorem World.rating_some (W : World dist inp g) (hfit : SmallDegrees dist inp) {p u : Nat} (hp : p < procs dist) (hu : u < localN dist p) :
    ∃ adj, (g p).adjacent? u = some adj ∧ (∀ x, x ∈ adj → ∃ v, (g p).localToGlobal? x.1 = some v ∧ v < globalN dist) ∧
      ∀ view b, ∃ r, rating? adj view b = some r := by
  obtain ⟨adj, h1, h2⟩ := (W.represents p hp).neighbours u hu
  refine ⟨adj, h1, fun x hx => ?_, fun view b => ?_⟩
  · obtain ⟨y, hy, hxy⟩ := (mapM_mem h2).1 x hx
    obtain ⟨v, hv, rfl⟩ := Option.map_eq_some_iff.1 hxy
    exact ⟨v, hv, (W.valid p hp).targets _ ((W.valid p hp).neighbour_mem hu hy)⟩
  · have h3 : adj.map (fun x => |x.2|) = ((inp p).neighbours u).map fun x => |x.2| := by
      have h3 : adj.mapM (fun x => some |x.2|) = some (((inp p).neighbours u).map fun x => |x.2|) := by
        refine mapM_comp h2 fun x y _ hxy => ?_
        obtain ⟨v, hv, rfl⟩ := Option.map_eq_some_iff.1 hxy
        rfl
      rw [mapM_some (g := fun x : Nat × Int => |x.2|) fun _ _ => rfl] at h3
      injection h3
    have habs := hfit p hp u hu
    rw [← h3] at habs
    unfold rating?
    rw [add_fold_abs]
    · exact ⟨_, rfl⟩
    · rw [abs_zero, Int.zero_add, List.map_map, sum_filter_map]
      refine Int.lt_of_le_of_lt (sum_map_le (ψ := fun x => |x.2|) fun x _ => ?_) habs
      by_cases h : decide (view x.1 = b) = true
      · rw [if_pos h]; exact Int.le_refl _
      · rw [if_neg h]; exact abs_nonneg _

theorem batch_pick_fold {own : Nat} {r : Int} {weights : Nat → Int} {w : Int} {coin : Nat → Bool} : ∀ (es : List (Nat × Int)) (s : Int × Nat),
    (es.foldl (batchPick cfg own r weights w coin) s = s ∨ ∃ e, e ∈ es ∧ es.foldl (batchPick cfg own r weights w coin) s = (e.2 - r, e.1)) ∧
    s.1 ≤ (es.foldl (batchPick cfg own r weights w coin) s).1
  | [], s => ⟨Or.inl rfl, Int.le_refl _⟩
  | e :: es, s => by
    obtain ⟨h1, h2⟩ := batch_pick_fold (own := own) (r := r) (weights := weights) (w := w) (coin := coin) es
      (batchPick cfg own r weights w coin s e)
    rw [List.foldl_cons]
    have h4 : (batchPick cfg own r weights w coin s e = s ∨ batchPick cfg own r weights w coin s e = (e.2 - r, e.1)) ∧
        s.1 ≤ (batchPick cfg own r weights w coin s e).1 := by
      unfold batchPick
      by_cases c : (e.2 - r > s.1 ∨ (e.2 - r = s.1 ∧ coin e.1 = true)) ∧ (weights e.1 + w < cfg.limit e.1 ∨ e.1 = own)
      · rw [if_pos c]; exact ⟨Or.inr rfl, by show s.1 ≤ e.2 - r; omega⟩
      · rw [if_neg c]; exact ⟨Or.inl rfl, Int.le_refl _⟩
    refine ⟨?_, by omega⟩
    rcases h1 with h1 | ⟨e', he', h1⟩
    · rcases h4.1 with h5 | h5
      · left; rw [h1, h5]
      · right; exact ⟨e, List.mem_cons_self, by rw [h1, h5]⟩
    · right; exact ⟨e', List.mem_cons_of_mem _ he', h1⟩

/-- What one visit does. -/
theorem World.batch_visit (W : World dist inp g) (hfit : SmallDegrees dist inp) (hW : HasWeights dist inp Wt)
    (hP : ∀ a, a < globalN dist → P a < cfg.k) {p : Nat} (hp : p < procs dist) {fr ub : Nat} (hub : ub ≤ localN dist p) {v : Visit}
    (hv : v.Ok cfg.k fr ub) {s : BatchState × Nat} (hpart : ∀ l a, (g p).localToGlobal? l = some a → s.1.loc.part l = P a)
    (hnext : ∀ u, u < localN dist p → ∃ b, s.1.loc.next u = some b ∧ b < cfg.k) :
    ∃ r, batchVisit? cfg (g p) s v = some r ∧ (r = s ∨ ∃ b own, s.1.loc.next v.node = some own ∧ b < cfg.k ∧ b ≠ own ∧
      r = (⟨{ s.1.loc with next := upd s.1.loc.next v.node (some b) },
        bump (bump s.1.tracked b (Wt (first dist p + v.node))) own (-(Wt (first dist p + v.node)))⟩, s.2 + 1) ∧
      (v.reads = .exact → s.1.tracked b + Wt (first dist p + v.node) ≤ cfg.limit b ∧ ∃ adj x y, (g p).adjacent? v.node = some adj ∧
        rating? adj (batchCluster cfg.k (localN dist p) s.1.loc) b = some x ∧
        rating? adj (batchCluster cfg.k (localN dist p) s.1.loc) own = some y ∧ y ≤ x)) := by
  have hu : v.node < localN dist p := Nat.lt_of_lt_of_le hv.lt hub
  obtain ⟨adj, h1, h2, h3⟩ := W.rating_some hfit hp hu
  have hn := (W.represents p hp).n_eq
  obtain ⟨own, h4, h5⟩ := hnext v.node hu
  have hcl : ∀ l a, (g p).localToGlobal? l = some a → a < globalN dist → batchCluster cfg.k (g p).n s.1.loc l < cfg.k := by
    intro l a hl ha
    unfold batchCluster
    by_cases h : l < (g p).n
    · rw [if_pos h]
      obtain ⟨b, hb, hk⟩ := hnext l (by omega)
      rw [hb]; exact hk
    · rw [if_neg h, hpart l a hl]; exact hP a ha
  have hown : batchCluster cfg.k (g p).n s.1.loc v.node = own := by
    unfold batchCluster
    rw [if_pos (by omega), h4]; rfl
  unfold batchVisit?
  rw [h1, Option.bind_some, (W.represents p hp).node_weight _ hu, Option.bind_some, ← hW p hp _ hu, hown]
  dsimp only
  generalize hview : v.reads.view (batchCluster cfg.k (g p).n s.1.loc) = view
  have hvk : ∀ x, x ∈ adj → view x.1 < cfg.k := by
    intro x hx
    rw [← hview]
    cases hr : v.reads with
    | exact =>
      obtain ⟨a, ha1, ha2⟩ := h2 x hx
      exact hcl x.1 a ha1 ha2
    | stale view weights room => exact hv.view view weights room hr x.1
  have h3' := h3 view
  choose R hR using h3'
  have hkey : ∀ b, b ∈ v.order (adj.map fun x => view x.1).dedup → b < cfg.k := fun b hb => by
    rw [(hv.order _).mem_iff, List.mem_dedup] at hb
    obtain ⟨x, hx, rfl⟩ := List.mem_map.1 hb
    exact hvk x hx
  rw [mapM_some (g := fun b => (b, R b)) fun b hb => by rw [if_pos (hkey b hb), hR]; rfl]
  rw [Option.bind_some, hR, Option.map_some]
  generalize v.reads.weights s.1.tracked = wts
  obtain ⟨h6, h7⟩ := batch_pick_fold (cfg := cfg) (own := own) (r := R own) (weights := wts) (w := Wt (first dist p + v.node)) (coin := v.coin)
    ((v.order (adj.map fun x => view x.1).dedup).map fun b => (b, R b)) (0, own)
  generalize List.foldl _ _ _ = best at h6 h7
  refine ⟨_, rfl, ?_⟩
  by_cases hc : best.2 ≠ own ∧ v.reads.room s.1.tracked best.2 + Wt (first dist p + v.node) ≤ cfg.limit best.2
  · right
    rw [if_pos hc]
    rcases h6 with h6 | ⟨e, he, h6⟩
    · rw [h6] at hc; exact absurd rfl hc.1
    · obtain ⟨b', hb', rfl⟩ := List.mem_map.1 he
      have e1 : best.2 = b' := by rw [h6]
      have e2 : best.1 = R b' - R own := by rw [h6]
      refine ⟨best.2, own, h4, by rw [e1]; exact hkey _ hb', hc.1, rfl, fun hr => ?_⟩
      rw [hr] at hview hc
      dsimp only [Reads.view, Reads.room] at hview hc
      refine ⟨hc.2, adj, R b', R own, rfl, ?_, ?_, ?_⟩
      · rw [e1, ← hn, hview]; exact hR b'
      · rw [← hn, hview]; exact hR own
      · have : (0 : Int) ≤ best.1 := h7
        omega
  · left
    rw [if_neg hc]

/-- All visits of a chunk. -/
theorem World.batch_visits (W : World dist inp g) (hfit : SmallDegrees dist inp) (hW : HasWeights dist inp Wt)
    (hP : ∀ a, a < globalN dist → P a < cfg.k) {p : Nat} (hp : p < procs dist) {fr ub : Nat} (hub : ub ≤ localN dist p) :
    ∀ (vs : List Visit) (s : BatchState × Nat), (∀ v, v ∈ vs → v.Ok cfg.k fr ub) →
    (∀ l a, (g p).localToGlobal? l = some a → s.1.loc.part l = P a) → (∀ u, u < localN dist p → ∃ b, s.1.loc.next u = some b ∧ b < cfg.k) →
    ∃ r, vs.foldlM (batchVisit? cfg (g p)) s = some r ∧ r.1.loc.part = s.1.loc.part ∧ r.1.loc.weights = s.1.loc.weights ∧
      (∀ u, u < localN dist p → ∃ b, r.1.loc.next u = some b ∧ b < cfg.k) ∧ (∀ u, ¬ (fr ≤ u ∧ u < ub) → r.1.loc.next u = s.1.loc.next u) ∧
      s.2 ≤ r.2 ∧ (r.2 = s.2 → r = s)
  | [], s, _, _, hn => ⟨s, rfl, rfl, rfl, hn, fun _ _ => rfl, Nat.le_refl _, fun _ => rfl⟩
  | v :: vs, s, hv, hpart, hn => by
    have hv1 := hv v List.mem_cons_self
    obtain ⟨r1, h1, h2⟩ := W.batch_visit hfit hW hP hp hub hv1 hpart hn
    have h3 : r1.1.loc.part = s.1.loc.part ∧ r1.1.loc.weights = s.1.loc.weights ∧
        (∀ u, u < localN dist p → ∃ b, r1.1.loc.next u = some b ∧ b < cfg.k) ∧
        (∀ u, ¬ (fr ≤ u ∧ u < ub) → r1.1.loc.next u = s.1.loc.next u) ∧ s.2 ≤ r1.2 ∧ (r1.2 = s.2 → r1 = s) := by
      rcases h2 with rfl | ⟨b, own, _, hb, _, rfl, _⟩
      · exact ⟨rfl, rfl, hn, fun _ _ => rfl, Nat.le_refl _, fun _ => rfl⟩
      · refine ⟨rfl, rfl, fun u hu => ?_, fun u hu => ?_, Nat.le_succ _, fun h => ?_⟩
        · dsimp only
          by_cases e : u = v.node
          · subst e; rw [upd_same]; exact ⟨b, rfl, hb⟩
          · rw [upd_ne _ _ e]; exact hn u hu
        · dsimp only
          refine upd_ne _ _ fun e => hu ?_
          subst e
          exact ⟨hv1.ge, hv1.lt⟩
        · have : s.2 + 1 = s.2 := h
          omega
    obtain ⟨a1, a2, a3, a4, a5, a6⟩ := h3
    obtain ⟨r, b1, b2, b3, b4, b5, b6, b7⟩ := W.batch_visits hfit hW hP hp hub vs r1 (fun x hx => hv x (List.mem_cons_of_mem _ hx))
      (by rw [a1]; exact hpart) a3
    refine ⟨r, by rw [List.foldlM_cons, h1]; exact b1, b2.trans a1, b3.trans a2, b4, fun u hu => (b5 u hu).trans (a4 u hu), by omega, fun h => ?_⟩
    rw [b7 (by omega), a6 (by omega)]

/-- All visits of a chunk on a single process with a single thread. -/
theorem World.batch_visits_exact (W : World dist inp g) (hu : Undirected dist inp) (hl : LoopFree dist inp) (hfit : SmallDegrees dist inp)
    (hpos : NonnegEdges dist inp) (hW : HasWeights dist inp Wt) (hw : ∀ a, a < globalN dist → 0 ≤ Wt a) (h1p : procs dist = 1)
    (hP : ∀ a, a < globalN dist → P a < cfg.k) {fr ub : Nat} (hub : ub ≤ localN dist 0) :
    ∀ (vs : List Visit) (s : BatchState × Nat) (Q : Nat → Nat), (∀ v, v ∈ vs → v.Ok cfg.k fr ub ∧ v.reads = .exact) →
    (∀ l a, (g 0).localToGlobal? l = some a → s.1.loc.part l = P a) → (∀ u, u < localN dist 0 → s.1.loc.next u = some (Q (first dist 0 + u))) →
    (∀ a, a < globalN dist → Q a < cfg.k) → (∀ b, b < cfg.k → s.1.tracked b = blockWeight dist Wt Q b) →
    ∃ r Q', vs.foldlM (batchVisit? cfg (g 0)) s = some r ∧ (∀ u, u < localN dist 0 → r.1.loc.next u = some (Q' (first dist 0 + u))) ∧
      cut dist inp Q' ≤ cut dist inp Q ∧
      (∀ b, b < cfg.k → blockWeight dist Wt Q' b ≤ max (blockWeight dist Wt Q b) (cfg.limit b))
  | [], s, Q, _, _, hn, _, _ => ⟨s, Q, rfl, hn, Int.le_refl _, fun b _ => Int.le_max_left ..⟩
  | v :: vs, s, Q, hv, hpart, hn, hQ, ht => by
    have hp : 0 < procs dist := by omega
    obtain ⟨hv1, hv2⟩ := hv v List.mem_cons_self
    have hnode : v.node < localN dist 0 := Nat.lt_of_lt_of_le hv1.lt hub
    obtain ⟨r1, h1, h2⟩ := W.batch_visit hfit hW hP hp hub hv1 hpart fun u hu' => ⟨_, hn u hu', hQ _ (W.own_at hp hu').2⟩
    have h3 : ∃ Q1, r1.1.loc.part = s.1.loc.part ∧ (∀ u, u < localN dist 0 → r1.1.loc.next u = some (Q1 (first dist 0 + u))) ∧
        (∀ a, a < globalN dist → Q1 a < cfg.k) ∧ (∀ b, b < cfg.k → r1.1.tracked b = blockWeight dist Wt Q1 b) ∧
        cut dist inp Q1 ≤ cut dist inp Q ∧
        (∀ b, b < cfg.k → blockWeight dist Wt Q1 b ≤ max (blockWeight dist Wt Q b) (cfg.limit b)) := by
      rcases h2 with rfl | ⟨b, own, hown, hb, hne, rfl, hex⟩
      · exact ⟨Q, rfl, hn, hQ, ht, Int.le_refl _, fun b _ => Int.le_max_left ..⟩
      · obtain ⟨h4, adj, x, y, h5, h6, h7, h8⟩ := hex hv2
        rw [hn _ hnode] at hown
        injection hown with hown
        subst hown
        have hrange := (W.own_at hp hnode).2
        have hall : ∀ l a, (g 0).localToGlobal? l = some a → batchCluster cfg.k (localN dist 0) s.1.loc l = Q a := by
          intro l a hla
          rcases (W.node hp hla).2 with ⟨_, c1, c2, _⟩ | ⟨_, _, _, q, c3, c4, _⟩
          · unfold batchCluster
            rw [if_pos c1, hn l c1, c2]; rfl
          · exfalso
            have := c4.lt
            omega
        obtain ⟨adj', d1, d2, _⟩ := W.ratings hfit hpos hp hnode hall
        rw [h5] at d1
        injection d1 with d1
        subst d1
        rw [d2] at h6 h7
        injection h6 with h6
        injection h7 with h7
        have hcut := cut_move (P := Q) hu hl (first dist 0 + v.node) b
        have hwt := weight_move (P := Q) Wt hrange b
        have hw0 := hw _ hrange
        refine ⟨upd Q (first dist 0 + v.node) b, rfl, fun u hu' => ?_, fun a ha => ?_, fun b' hb' => ?_, by omega, fun b' hb' => ?_⟩
        · dsimp only
          by_cases e : u = v.node
          · subst e; rw [upd_same, upd_same]
          · rw [upd_ne _ _ e, upd_ne _ _ (by omega)]; exact hn u hu'
        · by_cases e : a = first dist 0 + v.node
          · subst e; rw [upd_same]; exact hb
          · rw [upd_ne _ _ e]; exact hQ a ha
        · dsimp only
          rw [hwt b']
          have e1 := bump_two (f := s.1.tracked) (x := Q (first dist 0 + v.node)) (y := b) (w := Wt (first dist 0 + v.node)) b'
          rw [← ht b' hb', ← e1]
          unfold bump
          by_cases c1 : b' = b <;> by_cases c2 : b' = Q (first dist 0 + v.node)
          · subst c1; exact absurd c2 hne
          · subst c1
            simp only [upd_same, upd_ne _ _ c2, upd_ne _ _ (Ne.symm c2)]
          · subst c2
            simp only [upd_same, upd_ne _ _ c1, upd_ne _ _ (Ne.symm c1)]
          · simp only [upd_ne _ _ c1, upd_ne _ _ c2]
        · rw [hwt b']
          by_cases c1 : b = b'
          · subst c1
            have := ht b hb
            rw [if_pos rfl, if_neg (Ne.symm hne)]
            omega
          · rw [if_neg c1]
            by_cases c2 : Q (first dist 0 + v.node) = b'
            · rw [if_pos c2]; omega
            · rw [if_neg c2]; omega
    obtain ⟨Q1, a1, a2, a3, a4, a5, a6⟩ := h3
    obtain ⟨r, Q', b1, b2, b3, b4⟩ := W.batch_visits_exact hu hl hfit hpos hW hw h1p hP hub vs r1 Q1
      (fun x hx => hv x (List.mem_cons_of_mem _ hx)) (by rw [a1]; exact hpart) a2 a3 a4
    refine ⟨r, Q', by rw [List.foldlM_cons, h1]; exact b1, b2, by omega, fun b hb => ?_⟩
    have := b4 b hb
    have := a6 b hb
    omega

end Verif.Dist
