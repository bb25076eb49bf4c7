import Verif.Dist.GlobalLPLocal
import Verif.Dist.BatchedLPProps

/-!
# The chunks of the distributed label propagation clustering
-/

namespace Verif.Dist
open Verif Verif.Math

variable {dist : List Nat} {inp : Nat → Input} {g : Nat → DGraph} {C : Nat → Nat} {Wt : Nat → Int} {cfg : GCConfig}

/-- What may happen while chunk `c` is handled: each process visits nodes of its chunk, threads execute the exchange in some order, and
look at nodes of the process to find isolated nodes. -/
structure GCSchedule.Ok (dist : List Nat) (cfg : GCConfig) (c : Nat) (sch : GCSchedule) : Prop where
  ok : ∃ fr ub : Nat → Nat, (∀ p, p < procs dist → localRange? (localN dist p) cfg.chunks c = some (fr p, ub p)) ∧
    (∀ p, p < procs dist → ∀ v, v ∈ sch.visits p → v.Ok (fr p) (ub p)) ∧ sch.sync.Ok dist fr ub
  events : ∀ p, p < procs dist → ∀ e, e ∈ sch.events p → e.node < localN dist p

theorem GCInv.start {p : Nat} {s : GCState} (I : GCInv dist g p 0 0 C s) : (∀ u, s.changed u = none) ∧ ∀ fr ub, GCInv dist g p fr ub C s := by
  have h : ∀ u, s.changed u = none := fun u => by
    cases hc : s.changed u with
    | none => rfl
    | some o => exact absurd (I.changed u o hc).2.1 (by omega)
  exact ⟨h, fun fr ub => ⟨I.toGCKnown, fun u o hu => (by rw [h u] at hu; cases hu), I.same⟩⟩

theorem forAll_if {α : Type} (d : α) {N : Nat} {f : Nat → Option α} {b : Prop} [Decidable b] {x : Nat → α} {Q : Nat → α → Prop}
    (h : b → ∀ p, p < N → ∃ r, f p = some r ∧ Q p r) (h' : ¬ b → ∀ p, p < N → Q p (x p)) :
    ∃ r, (if b then forAll? N d f else some x) = some r ∧ ∀ p, p < N → Q p (r p) := by
  by_cases hb : b
  · rw [if_pos hb]; exact forAll_ok d (h hb)
  · rw [if_neg hb]; exact ⟨x, rfl, h' hb⟩

/-- One chunk. -/
theorem World.gc_chunk (W : World dist inp g) (hsym : Symmetric dist inp) (hfit : SmallDegrees dist inp) {c : Nat} (hc : c < cfg.chunks)
    {sch : GCSchedule} (hsch : sch.Ok dist cfg c) {s : Nat → GCState} (hI : ∀ p, p < procs dist → GCInv dist g p 0 0 C (s p)) :
    ∃ n s' C', gcChunk? (procs dist) cfg g sch c s = some (n, s') ∧ ∀ p, p < procs dist → GCInv dist g p 0 0 C' (s' p) := by
  obtain ⟨fr, ub, hr, hv, hsync⟩ := hsch.ok
  have hub : ∀ p, p < procs dist → ub p ≤ localN dist p := by
    intro p hp
    exact (Math.Props.C01_ranges_fair _ _ _ _ _ hc (hr p hp)).2.1
  obtain ⟨range, h1, h2⟩ := forAll_ok ((0, 0) : Nat × Nat) (N := procs dist) (f := fun p => Math.localRange? (g p).n cfg.chunks c)
    (Q := fun p r => r = (fr p, ub p)) (fun p hp => ⟨_, by rw [(W.represents p hp).n_eq]; exact hr p hp, rfl⟩)
  have hf1 : ∀ p, p < procs dist → (range p).1 = fr p := fun p hp => by rw [h2 p hp]
  have hf2 : ∀ p, p < procs dist → (range p).2 = ub p := fun p hp => by rw [h2 p hp]
  have hub' : ∀ p, p < procs dist → (range p).2 ≤ localN dist p := fun p hp => by rw [hf2 p hp]; exact hub p hp
  obtain ⟨t, h3, h4⟩ := forAll_ok ((GCState.zero, 0) : GCState × Nat) (N := procs dist)
    (f := fun p => (sch.visits p).foldlM (gcVisit? cfg (g p)) (s p, 0))
    (Q := fun p r => GCInv dist g p (range p).1 (range p).2 C r.1 ∧ (r.2 = 0 → ∀ u, r.1.changed u = none)) (by
      intro p hp
      obtain ⟨r, a1, a2, _, a4⟩ := W.gc_visits (cfg := cfg) (fr := (range p).1) hfit hp (hub' p hp) (sch.visits p) (s p, 0)
        (by rw [hf1 p hp, hf2 p hp]; exact hv p hp) ((hI p hp).start.2 _ _)
      exact ⟨r, a1, a2, fun h => by rw [a4 h]; exact (hI p hp).start.1⟩)
  unfold gcChunk?
  rw [h1, Option.bind_some, h3, Option.bind_some]
  dsimp only
  obtain ⟨a, h5, h6⟩ := forAll_if GCState.zero (N := procs dist) (b := cfg.sync = true)
    (f := gcControl? (procs dist) cfg g (fun p => (range p).1) (fun p => (range p).2) sch.room fun p => (t p).1) (x := fun p => (t p).1)
    (Q := fun p r => GCInv dist g p (range p).1 (range p).2 C r ∧ (∀ c, ((t p).1.weight c).isSome = true → (r.weight c).isSome = true) ∧
      ((t p).2 = 0 → ∀ u, r.changed u = none))
    (fun _ p hp => by
      obtain ⟨r, a1, a2, a3, a4⟩ := W.gc_control (cfg := cfg) (fr := fun p => (range p).1) (ub := fun p => (range p).2) hub' sch.room
        (s := fun p => (t p).1) (fun q hq => (h4 q hq).1) hp
      exact ⟨r, a1, a2, a3, fun h => by rw [(a4 ((h4 p hp).2 h)).2]; exact (h4 p hp).2 h⟩)
    (fun _ p hp => ⟨(h4 p hp).1, fun _ h => h, (h4 p hp).2⟩)
  rw [h5, Option.bind_some]
  obtain ⟨C1, b, h7, h8⟩ : ∃ C1 b, (if ((List.range (procs dist)).map fun p => (t p).2).sum > 0 then forAll? (procs dist) GCState.zero
      (gcSync? (procs dist) cfg g (fun p => (range p).1) (fun p => (range p).2) (fun p => gcKeys (g p) (range p).1 (range p).2 (t p).1) sch.sync a)
      else some a) = some b ∧ ∀ p, p < procs dist → GCInv dist g p 0 0 C1 (b p) := by
    by_cases hm : ((List.range (procs dist)).map fun p => (t p).2).sum > 0
    · rw [if_pos hm]
      have hex : sch.sync.Ok dist (fun p => (range p).1) (fun p => (range p).2) := by
        refine ⟨fun p hp => ?_, hsync.shuffle⟩
        have := hsync.exec p hp
        rw [hf1 p hp, hf2 p hp]
        exact this
      obtain ⟨b, h7, h8⟩ := forAll_ok GCState.zero (N := procs dist)
        (f := gcSync? (procs dist) cfg g (fun p => (range p).1) (fun p => (range p).2) (fun p => gcKeys (g p) (range p).1 (range p).2 (t p).1)
          sch.sync a) (Q := fun p r => GCInv dist g p 0 0 (glue dist fun p => (a p).cluster) r)
        (fun p hp => W.gc_sync hsym hub' hex (fun q hq => (h6 q hq).1)
          (fun q hq c hc => (h6 q hq).2.1 c ((h4 q hq).1.keys W hq (hub' q hq) hc).2) hp)
      exact ⟨_, b, h7, h8⟩
    · rw [if_neg hm]
      refine ⟨C, a, rfl, fun p hp => ?_⟩
      have h0 := (h6 p hp).2.2 (sum_zero (l := (List.range (procs dist)).map fun p => (t p).2) (by omega) _
        (List.mem_map.2 ⟨p, List.mem_range.2 hp, rfl⟩))
      exact ⟨(h6 p hp).1.toGCKnown, fun u o hu => (by rw [h0 u] at hu; cases hu), (h6 p hp).1.same⟩
  rw [h7, Option.bind_some]
  obtain ⟨r, h9, h10⟩ := forAll_if GCState.zero (N := procs dist) (b := cfg.merge = true)
    (f := fun p => gcMerge? cfg (g p) (sch.events p) (b p)) (x := b)
    (Q := fun p r => GCKnown dist g p r ∧ r.changed = (b p).changed ∧
      ∀ l, localN dist p ≤ l ∨ (g p).adjacent? l ≠ some [] → r.cluster l = (b p).cluster l)
    (fun _ p hp => W.gc_merge hp (h8 p hp).toGCKnown (hsch.events p hp))
    (fun _ p hp => ⟨(h8 p hp).toGCKnown, rfl, fun _ _ => rfl⟩)
  rw [h9, Option.map_some]
  refine ⟨_, r, glue dist fun p => (r p).cluster, rfl, fun p hp => ⟨(h10 p hp).1, fun u o hu => ?_, fun l v hl _ => ?_⟩⟩
  · rw [(h10 p hp).2.1, (h8 p hp).start.1 u] at hu
    cases hu
  · rcases (W.node hp hl).2 with ⟨_, h11, h12, h13⟩ | ⟨_, h11, h12, q, _, h13, h14⟩
    · rw [h12, W.glue_at _ hp h11]
    · have hq := h13.lt
      have hb := ((W.valid p hp).owns_iff' hq).1 h13
      have hloc : v - first dist q < localN dist q := by unfold localN; omega
      have hv : first dist q + (v - first dist q) = v := by omega
      have hg := W.glue_at (fun p => (r p).cluster) hq hloc
      have hown := (W.represents q hq).own _ hloc
      rw [hv] at hg hown
      rw [hg, (h10 p hp).2.2 l (Or.inl h11), (h10 q hq).2.2 _ (Or.inr (W.not_isolated hsym hp hl h11 h13)),
        (h8 p hp).same l v hl fun _ => (h8 p hp).start.1 l, (h8 q hq).same _ v hown fun _ => (h8 q hq).start.1 _]

theorem World.gc_chunks (W : World dist inp g) (hsym : Symmetric dist inp) (hfit : SmallDegrees dist inp) {sch : Nat → GCSchedule}
    (hsch : ∀ c, c < cfg.chunks → (sch c).Ok dist cfg c) : ∀ (m c n : Nat) (C : Nat → Nat) (s : Nat → GCState), c + m ≤ cfg.chunks →
    (∀ p, p < procs dist → GCInv dist g p 0 0 C (s p)) →
    ∃ n' s' C', gcChunks? (procs dist) cfg g sch m c (n, s) = some (n', s') ∧ ∀ p, p < procs dist → GCInv dist g p 0 0 C' (s' p)
  | 0, c, n, C, s, _, hI => ⟨n, s, C, rfl, hI⟩
  | m + 1, c, n, C, s, hc, hI => by
    obtain ⟨n1, s1, C1, h1, h2⟩ := W.gc_chunk hsym hfit (by omega) (hsch c (by omega)) hI
    obtain ⟨n', s', C', h4, h5⟩ := W.gc_chunks hsym hfit hsch m (c + 1) (n + n1) C1 s1 (by omega) h2
    refine ⟨n', s', C', ?_, h5⟩
    unfold gcChunks?
    dsimp only
    rw [h1, Option.bind_some]
    exact h4

theorem World.gc_iterations (W : World dist inp g) (hsym : Symmetric dist inp) (hfit : SmallDegrees dist inp) {sch : Nat → Nat → GCSchedule}
    (hsch : ∀ t c, c < cfg.chunks → (sch t c).Ok dist cfg c) : ∀ (m t : Nat) (C : Nat → Nat) (s : Nat → GCState),
    (∀ p, p < procs dist → GCInv dist g p 0 0 C (s p)) →
    ∃ s' C', gcIterations? (procs dist) cfg g sch m t s = some s' ∧ ∀ p, p < procs dist → GCInv dist g p 0 0 C' (s' p)
  | 0, t, C, s, hI => ⟨s, C, rfl, hI⟩
  | m + 1, t, C, s, hI => by
    obtain ⟨n1, s1, C1, h1, h2⟩ := W.gc_chunks hsym hfit (hsch t) cfg.chunks 0 0 C s (by omega) hI
    unfold gcIterations?
    rw [h1, Option.bind_some]
    by_cases hn : n1 = 0
    · rw [if_pos hn]
      exact ⟨s1, C1, rfl, h2⟩
    · rw [if_neg hn]
      exact W.gc_iterations hsym hfit hsch m (t + 1) C1 s1 h2

/-- The weight of every node that a process knows is stored. -/
theorem World.ghost_weight (W : World dist inp g) {p l v : Nat} (hp : p < procs dist) (h : (g p).localToGlobal? l = some v) :
    ((g p).nodeWeight? l).isSome = true := by
  have hl := lt_total h
  have R := W.represents p hp
  have := R.room
  unfold DGraph.nodeWeight?
  split at this
  · rw [this]; rfl
  · split
    · rfl
    · rw [List.getElem?_eq_getElem (by omega)]; rfl

theorem World.gc_start (W : World dist inp g) {p : Nat} (hp : p < procs dist) : GCInv dist g p 0 0 (fun a => a) (gcStart (g p)) := by
  have R := W.represents p hp
  have key : ∀ l v, (g p).localToGlobal? l = some v → v < globalN dist ∧ ((gcStart (g p)).weight v).isSome = true := by
    intro l v hl
    refine ⟨?_, ?_⟩
    · rcases (W.node hp hl).2 with ⟨_, _, _, h⟩ | ⟨_, _, _, q, _, h, _⟩
      · exact W.lt_global h.lt (((W.valid p hp).owns_iff' h.lt).1 h).2
      · exact W.lt_global h.lt (((W.valid p hp).owns_iff' h.lt).1 h).2
    · show (((g p).globalToLocal? v).bind (g p).nodeWeight?).isSome = true
      rw [(W.node hp hl).1, Option.bind_some]
      exact W.ghost_weight hp hl
  refine ⟨⟨fun l a hl => ?_, fun u hu => (key _ _ (R.own u hu)).2⟩, fun u o h => (by cases h), fun l a hl _ => ?_⟩
  · have : (gcStart (g p)).cluster l = a := by
      show ((g p).localToGlobal? l).getD 0 = a
      rw [hl]; rfl
    rw [this]
    exact key l a hl
  · show ((g p).localToGlobal? l).getD 0 = a
    rw [hl]; rfl

end Verif.Dist
