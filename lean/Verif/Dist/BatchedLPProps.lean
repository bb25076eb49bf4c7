import Verif.Dist.BatchedLPMoves
import Verif.Dist.ColoredLPProps
import Verif.Math.Props

/-!
# Properties of the label propagation refiner
-/

namespace Verif.Dist
open Verif Verif.Math

variable {dist : List Nat} {inp : Nat → Input} {g : Nat → DGraph} {P P' P'' : Nat → Nat} {Wt : Nat → Int} {cfg : BatchConfig}
variable {s : Nat → BatchState}

/-- What may happen while chunk `c` is handled: each process visits nodes of its chunk, and threads execute the exchange in some order. -/
structure ChunkSchedule.Ok (dist : List Nat) (cfg : BatchConfig) (c : Nat) (sch : ChunkSchedule) : Prop where
  ok : ∃ fr ub : Nat → Nat, (∀ p, p < procs dist → localRange? (localN dist p) cfg.chunks c = some (fr p, ub p)) ∧
    (∀ p, p < procs dist → ∀ v, v ∈ sch.visits p → v.Ok cfg.k (fr p) (ub p)) ∧ sch.sync.Ok dist fr ub

/-- No process has more than one thread. -/
def ChunkSchedule.Exact (dist : List Nat) (sch : ChunkSchedule) : Prop :=
  ∀ p, p < procs dist → ∀ v, v ∈ sch.visits p → v.reads = .exact

/-- There is one process, which executes all moves. -/
structure Alone (dist : List Nat) (cfg : BatchConfig) : Prop where
  one : procs dist = 1
  attempts : 0 < cfg.attempts
  ignore : cfg.ignoreProbabilities = true

/-- What the refiner guarantees. -/
structure BatchResult (dist : List Nat) (inp : Nat → Input) (Wt : Nat → Int) (cfg : BatchConfig) (seq : Prop) (P P' : Nat → Nat) : Prop where
  limit : cfg.ignoreProbabilities = false → ∀ b, b < cfg.k → blockWeight dist Wt P' b ≤ max (blockWeight dist Wt P b) (cfg.limit b)
  alone : seq → cut dist inp P' ≤ cut dist inp P ∧
    ∀ b, b < cfg.k → blockWeight dist Wt P' b ≤ max (blockWeight dist Wt P b) (cfg.limit b)

theorem BatchResult.refl {seq : Prop} : BatchResult dist inp Wt cfg seq P P :=
  ⟨fun _ b _ => Int.le_max_left .., fun _ => ⟨Int.le_refl _, fun b _ => Int.le_max_left ..⟩⟩

theorem BatchResult.trans {seq : Prop} (h : BatchResult dist inp Wt cfg seq P P') (h' : BatchResult dist inp Wt cfg seq P' P'') :
    BatchResult dist inp Wt cfg seq P P'' where
  limit := fun hi b hb => by
    have := h.limit hi b hb
    have := h'.limit hi b hb
    omega
  alone := fun hs => by
    obtain ⟨a1, a2⟩ := h.alone hs
    obtain ⟨b1, b2⟩ := h'.alone hs
    refine ⟨by omega, fun b hb => ?_⟩
    have := a2 b hb
    have := b2 b hb
    omega

/-- The state between two chunks. -/
structure BatchStart (dist : List Nat) (g : Nat → DGraph) (Wt : Nat → Int) (cfg : BatchConfig) (P : Nat → Nat) (s : Nat → BatchState) : Prop where
  agree : Agree dist g Wt cfg.k (fun p => (s p).loc.part) (fun p => (s p).loc.weights) P
  blocks : ∀ a, a < globalN dist → P a < cfg.k
  next : ∀ p, p < procs dist → ∀ u, u < localN dist p → (s p).loc.next u = some (P (first dist p + u))
  tracked : 0 < cfg.attempts → ∀ p, p < procs dist → ∀ b, b < cfg.k → (s p).tracked b = blockWeight dist Wt P b

theorem World.cut_congr (W : World dist inp g) (h : ∀ a, a < globalN dist → P a = P' a) : cut dist inp P = cut dist inp P' := by
  unfold cut
  congr 2
  apply List.filter_congr
  rintro ⟨a, b, w⟩ he
  have := W.edge_lt ((isEdge_edges W.valid).2 ⟨w, he⟩)
  dsimp only
  rw [h a this.1, h b this.2]

theorem weight_congr (h : ∀ a, a < globalN dist → P a = P' a) (b : Nat) : blockWeight dist Wt P b = blockWeight dist Wt P' b := by
  unfold blockWeight
  congr 2
  apply List.filter_congr
  intro a ha
  rw [h a (List.mem_range.1 ha)]

theorem sum_zero : ∀ {l : List Nat}, l.sum = 0 → ∀ x, x ∈ l → x = 0
  | [], _, _, h => absurd h List.not_mem_nil
  | y :: l, h, x, hx => by
    rw [List.sum_cons] at h
    rcases List.mem_cons.1 hx with rfl | hx
    · omega
    · exact sum_zero (by omega) x hx

theorem LPInput.batch_chunk (I : LPInput dist inp g Wt) {c : Nat} (hc : c < cfg.chunks) {sch : ChunkSchedule} (hsch : sch.Ok dist cfg c)
    (S : BatchStart dist g Wt cfg P s) :
    ∃ n s' P', batchChunk? (procs dist) cfg g sch c s = some (n, s') ∧ BatchStart dist g Wt cfg P' s' ∧
      BatchResult dist inp Wt cfg (Alone dist cfg ∧ sch.Exact dist) P P' := by
  have W := I.world
  obtain ⟨fr, ub, hr, hv, hsync⟩ := hsch.ok
  have hub : ∀ p, p < procs dist → ub p ≤ localN dist p := by
    intro p hp
    exact (Math.Props.C01_ranges_fair _ _ _ _ _ hc (hr p hp)).2.1
  obtain ⟨range, h1, h2⟩ := forAll_ok ((0, 0) : Nat × Nat) (N := procs dist) (f := fun p => Math.localRange? (g p).n cfg.chunks c)
    (Q := fun p r => r = (fr p, ub p)) (fun p hp => ⟨_, by rw [(W.represents p hp).n_eq]; exact hr p hp, rfl⟩)
  have hnext : ∀ p, p < procs dist → ∀ u, u < localN dist p → ∃ b, (s p).loc.next u = some b ∧ b < cfg.k :=
    fun p hp u hu => ⟨_, S.next p hp u hu, S.blocks _ (W.own_at hp hu).2⟩
  obtain ⟨t, h3, h4⟩ := forAll_ok ((⟨LPLocal.zero, fun _ => 0⟩, 0) : BatchState × Nat) (N := procs dist)
    (f := fun p => (sch.visits p).foldlM (batchVisit? cfg (g p)) (s p, 0))
    (Q := fun p r => (sch.visits p).foldlM (batchVisit? cfg (g p)) (s p, 0) = some r ∧ r.1.loc.part = (s p).loc.part ∧
      r.1.loc.weights = (s p).loc.weights ∧ (∀ u, u < localN dist p → ∃ b, r.1.loc.next u = some b ∧ b < cfg.k) ∧
      (∀ u, ¬ (fr p ≤ u ∧ u < ub p) → r.1.loc.next u = (s p).loc.next u) ∧ (r.2 = 0 → r = (s p, 0))) (by
      intro p hp
      obtain ⟨r, a1, a2, a3, a4, a5, _, a7⟩ := W.batch_visits I.fits I.weights S.blocks hp (hub p hp) (sch.visits p) (s p, 0) (hv p hp)
        (S.agree p hp).1 (hnext p hp)
      exact ⟨r, a1, a1, a2, a3, a4, a5, a7⟩)
  unfold batchChunk?
  rw [h1, Option.bind_some, h3, Option.bind_some]
  dsimp only
  by_cases hm : ((List.range (procs dist)).map fun p => (t p).2).sum = 0
  · rw [if_pos hm]
    have hs : ∀ p, p < procs dist → (t p).1 = s p := by
      intro p hp
      rw [(h4 p hp).2.2.2.2.2 (sum_zero hm _ (List.mem_map.2 ⟨p, List.mem_range.2 hp, rfl⟩))]
    refine ⟨_, _, P, rfl, ⟨fun p hp => ?_, S.blocks, fun p hp => ?_, fun ha p hp => ?_⟩, BatchResult.refl⟩
    · have := S.agree p hp
      dsimp only at this ⊢
      rw [hs p hp]; exact this
    · rw [hs p hp]; exact S.next p hp
    · rw [hs p hp]; exact S.tracked ha p hp
  · rw [if_neg hm]
    have hag : Agree dist g Wt cfg.k (fun p => (t p).1.loc.part) (fun p => (t p).1.loc.weights) P := by
      intro p hp
      have := S.agree p hp
      dsimp only at this ⊢
      rw [(h4 p hp).2.1, (h4 p hp).2.2.1]; exact this
    obtain ⟨a, P', h5, E⟩ := W.batch_attempts (fr := fun p => (range p).1) (ub := fun p => (range p).2) (cfg := cfg) I.weights
      (fun p hp => by rw [h2 p hp]; exact hub p hp) sch.flip S.blocks cfg.attempts 0 (fun p => (t p).1) False hag
      (fun p hp u _ hu => by
        rw [h2 p hp] at hu
        exact (h4 p hp).2.2.2.1 u (Nat.lt_of_lt_of_le hu (hub p hp)))
      (fun h => h.elim) (fun h => h.elim)
    rw [h5, Option.bind_some]
    have hfr : ∀ p, p < procs dist → (range p).1 = fr p ∧ (range p).2 = ub p := fun p hp => by rw [h2 p hp]; exact ⟨rfl, rfl⟩
    obtain ⟨r, h6, h7⟩ := forAll_ok (⟨LPLocal.zero, fun _ => 0⟩ : BatchState) (N := procs dist)
      (f := fun p => (lpSync? (procs dist) g (fun _ u => u) sch.sync (fun q => (a q).loc) p).map fun part =>
        (⟨resetNext (fun u => u) (range p).1 (range p).2 { (a p).loc with part := part }, (a p).tracked⟩ : BatchState))
      (Q := fun p r => (∀ l v, (g p).localToGlobal? l = some v → r.loc.part l = P' v) ∧ r.loc.weights = (a p).loc.weights ∧
        r.tracked = (a p).tracked ∧ (∀ u, fr p ≤ u → u < ub p → r.loc.next u = some (P' (first dist p + u))) ∧
        ∀ u, ¬ (fr p ≤ u ∧ u < ub p) → r.loc.next u = (a p).loc.next u) (by
        intro p hp
        obtain ⟨part, b1, b2⟩ := W.lp_sync I.symmetric (node := fun _ u => u) (fr := fr) (ub := ub)
          (fun q hq i _ h => Nat.lt_of_lt_of_le h (hub q hq)) hsync (s := fun q => (a q).loc) (P := P) (P' := P') E.own E.ghost
          (fun q hq u hu h => E.mark q hq u hu fun h' => by
            rw [(hfr q hq).1, (hfr q hq).2] at h'
            exact h u h'.1 h'.2.1 rfl h'.2.2) hp
        rw [b1, Option.map_some]
        refine ⟨_, rfl, b2, rfl, rfl, fun u hu1 hu2 => ?_, fun u hu => ?_⟩
        · show (if (range p).1 ≤ u ∧ u < (range p).2 then some (part u) else (a p).loc.next u) = _
          rw [(hfr p hp).1, (hfr p hp).2, if_pos ⟨hu1, hu2⟩,
            b2 _ _ ((W.represents p hp).own u (Nat.lt_of_lt_of_le hu2 (hub p hp)))]
        · show (if (range p).1 ≤ u ∧ u < (range p).2 then some (part u) else (a p).loc.next u) = _
          rw [(hfr p hp).1, (hfr p hp).2, if_neg hu])
    rw [h6, Option.map_some]
    have hout : ∀ p, p < procs dist → ∀ u, ¬ (fr p ≤ u ∧ u < ub p) → (a p).loc.next u = (s p).loc.next u := by
      intro p hp u hu
      rw [E.outside p hp u (by rw [(hfr p hp).1, (hfr p hp).2]; exact hu), (h4 p hp).2.2.2.2.1 u hu]
    have hsame : ∀ p, p < procs dist → ∀ u, u < localN dist p → ¬ (fr p ≤ u ∧ u < ub p) →
        P' (first dist p + u) = P (first dist p + u) := by
      intro p hp u hu h
      refine E.mark p hp u hu fun h' => h ?_
      rw [(hfr p hp).1, (hfr p hp).2] at h'
      exact ⟨h'.1, h'.2.1⟩
    refine ⟨_, r, P', rfl, ⟨fun p hp => ⟨(h7 p hp).1, fun b hb => ?_⟩, E.blocks, fun p hp u hu => ?_, fun ha p hp b hb => ?_⟩, ?_, ?_⟩
    · dsimp only
      rw [(h7 p hp).2.1]; exact E.weights p hp b hb
    · by_cases h : fr p ≤ u ∧ u < ub p
      · exact (h7 p hp).2.2.2.1 u h.1 h.2
      · rw [(h7 p hp).2.2.2.2 u h, hout p hp u h, S.next p hp u hu, hsame p hp u hu h]
    · rw [(h7 p hp).2.2.1]; exact E.tracked (Or.inr ha) p hp b hb
    · exact E.limit
    · rintro ⟨A, hx⟩
      have hp : 0 < procs dist := by have := A.one; omega
      obtain ⟨r', Q', c1, c2, c3, c4⟩ := W.batch_visits_exact I.undirected I.loopFree I.fits I.edges I.weights I.nonneg A.one S.blocks (hub 0 hp)
        (sch.visits 0) (s 0, 0) P (fun v hv' => ⟨hv 0 hp v hv', hx 0 hp v hv'⟩) (S.agree 0 hp).1 (S.next 0 hp) S.blocks
        (S.tracked A.attempts 0 hp)
      rw [(h4 0 hp).1] at c1
      injection c1 with c1
      subst c1
      have heq : ∀ x, x < globalN dist → P' x = Q' x := by
        intro x hx'
        have hf : first dist 0 = 0 := (W.valid 0 hp).zero
        have hlN : localN dist 0 = globalN dist := by
          unfold localN globalN
          rw [A.one, hf]; rfl
        have hx2 : x < localN dist 0 := by omega
        have e : first dist 0 + x = x := by omega
        have c5 := c2 x hx2
        rw [e] at c5
        by_cases h : fr 0 ≤ x ∧ x < ub 0
        · have := E.all (Or.inr A.attempts) A.ignore 0 hp x (by rw [(hfr 0 hp).1]; exact h.1)
            (by rw [(hfr 0 hp).2]; exact h.2)
          rw [c5, e] at this
          injection this with this
          exact this.symm
        · have h8 := hsame 0 hp x hx2 h
          rw [(h4 0 hp).2.2.2.2.1 x h, S.next 0 hp x hx2, e] at c5
          rw [e] at h8
          injection c5 with c5
          omega
      rw [W.cut_congr heq]
      refine ⟨c3, fun b hb => ?_⟩
      rw [weight_congr heq]
      exact c4 b hb

theorem LPInput.batch_chunks (I : LPInput dist inp g Wt) {sch : Nat → ChunkSchedule} (hsch : ∀ c, c < cfg.chunks → (sch c).Ok dist cfg c)
    {seq : Prop} (hseq : seq → Alone dist cfg ∧ ∀ c, c < cfg.chunks → (sch c).Exact dist) :
    ∀ (m c n : Nat) (P : Nat → Nat) (s : Nat → BatchState), c + m ≤ cfg.chunks → BatchStart dist g Wt cfg P s →
    ∃ n' s' P', batchChunks? (procs dist) cfg g sch m c (n, s) = some (n', s') ∧ BatchStart dist g Wt cfg P' s' ∧
      BatchResult dist inp Wt cfg seq P P'
  | 0, c, n, P, s, _, S => ⟨n, s, P, rfl, S, BatchResult.refl⟩
  | m + 1, c, n, P, s, hc, S => by
    obtain ⟨n1, s1, P1, h1, h2, h3⟩ := I.batch_chunk (by omega) (hsch c (by omega)) S
    obtain ⟨n', s', P', h4, h5, h6⟩ := I.batch_chunks hsch hseq m (c + 1) (n + n1) P1 s1 (by omega) h2
    refine ⟨n', s', P', ?_, h5, BatchResult.trans ⟨h3.limit, fun hs => h3.alone ⟨(hseq hs).1, (hseq hs).2 c (by omega)⟩⟩ h6⟩
    unfold batchChunks?
    dsimp only
    rw [h1, Option.bind_some]
    exact h4

theorem LPInput.batch_iterations (I : LPInput dist inp g Wt) {sch : Nat → Nat → ChunkSchedule}
    (hsch : ∀ t c, c < cfg.chunks → (sch t c).Ok dist cfg c) {seq : Prop}
    (hseq : seq → Alone dist cfg ∧ ∀ t c, c < cfg.chunks → (sch t c).Exact dist) :
    ∀ (m t : Nat) (P : Nat → Nat) (s : Nat → BatchState), BatchStart dist g Wt cfg P s →
    ∃ s' P', batchIterations? (procs dist) cfg g sch m t s = some s' ∧ BatchStart dist g Wt cfg P' s' ∧ BatchResult dist inp Wt cfg seq P P'
  | 0, t, P, s, S => ⟨s, P, rfl, S, BatchResult.refl⟩
  | m + 1, t, P, s, S => by
    obtain ⟨n1, s1, P1, h1, h2, h3⟩ := I.batch_chunks (hsch t) (fun h => ⟨(hseq h).1, (hseq h).2 t⟩) cfg.chunks 0 0 P s (by omega) S
    unfold batchIterations?
    rw [h1, Option.bind_some]
    by_cases hn : n1 = 0
    · rw [if_pos hn]
      exact ⟨s1, P1, rfl, h2, h3⟩
    · rw [if_neg hn]
      obtain ⟨s', P', h4, h5, h6⟩ := I.batch_iterations hsch hseq m (t + 1) P1 s1 h2
      exact ⟨s', P', h4, h5, h3.trans h6⟩

theorem LPInput.batch_refine (I : LPInput dist inp g Wt) {sch : Nat → Nat → ChunkSchedule}
    (hsch : ∀ t c, c < cfg.chunks → (sch t c).Ok dist cfg c) {part : Nat → Nat → Nat} {weights : Nat → Nat → Int}
    (hag : Agree dist g Wt cfg.k part weights P) (hP : ∀ a, a < globalN dist → P a < cfg.k) {seq : Prop}
    (hseq : seq → Alone dist cfg ∧ ∀ t c, c < cfg.chunks → (sch t c).Exact dist) :
    ∃ s' P', batchRefine? (procs dist) cfg g sch part weights = some s' ∧ BatchStart dist g Wt cfg P' s' ∧
      BatchResult dist inp Wt cfg seq P P' :=
  I.batch_iterations hsch hseq _ 0 P _ ⟨hag, hP, fun p hp u hu => congrArg some ((hag p hp).1 _ _ ((I.world.represents p hp).own u hu)),
    fun _ p hp => (hag p hp).2⟩

/-- **C79**, the label propagation refiner: whatever nodes are visited, whatever blocks and block weights the threads of a process read while
other threads change them, whichever moves are tried and in whatever order messages arrive, the refiner ends; afterwards all processes know
the same partition `P'`, each node has one of the `k` blocks, and all processes know the weights of the blocks.  Unless probabilities are
ignored, no block is heavier than its limit unless it was before, and then it did not become heavier. -/
theorem C79_refinement (I : LPInput dist inp g Wt) {sch : Nat → Nat → ChunkSchedule}
    (hsch : ∀ t c, c < cfg.chunks → (sch t c).Ok dist cfg c) {part : Nat → Nat → Nat} {weights : Nat → Nat → Int}
    (hag : Agree dist g Wt cfg.k part weights P) (hP : ∀ a, a < globalN dist → P a < cfg.k) :
    ∃ s' P', batchRefine? (procs dist) cfg g sch part weights = some s' ∧
      Agree dist g Wt cfg.k (fun p => (s' p).loc.part) (fun p => (s' p).loc.weights) P' ∧ (∀ a, a < globalN dist → P' a < cfg.k) ∧
      (cfg.ignoreProbabilities = false →
        ∀ b, b < cfg.k → blockWeight dist Wt P' b ≤ max (blockWeight dist Wt P b) (cfg.limit b)) := by
  obtain ⟨s', P', h1, h2, h3⟩ := I.batch_refine hsch hag hP (seq := False) False.elim
  exact ⟨s', P', h1, h2.agree, h2.blocks, h3.limit⟩

/-- **C79**, one process with one thread that ignores probabilities: also the cut does not become larger, and no block becomes heavier than
the larger of its limit and its weight before. -/
theorem C79_one_thread (I : LPInput dist inp g Wt) {sch : Nat → Nat → ChunkSchedule}
    (hsch : ∀ t c, c < cfg.chunks → (sch t c).Ok dist cfg c) {part : Nat → Nat → Nat} {weights : Nat → Nat → Int}
    (hag : Agree dist g Wt cfg.k part weights P) (hP : ∀ a, a < globalN dist → P a < cfg.k) (h1 : procs dist = 1) (h2 : 0 < cfg.attempts)
    (h3 : cfg.ignoreProbabilities = true) (hx : ∀ t c, c < cfg.chunks → (sch t c).Exact dist) :
    ∃ s' P', batchRefine? (procs dist) cfg g sch part weights = some s' ∧
      Agree dist g Wt cfg.k (fun p => (s' p).loc.part) (fun p => (s' p).loc.weights) P' ∧ cut dist inp P' ≤ cut dist inp P ∧
      ∀ b, b < cfg.k → blockWeight dist Wt P' b ≤ max (blockWeight dist Wt P b) (cfg.limit b) := by
  obtain ⟨s', P', h4, h5, h6⟩ := I.batch_refine hsch hag hP (seq := True) fun _ => ⟨⟨h1, h2, h3⟩, hx⟩
  exact ⟨s', P', h4, h5.agree, (h6.alone trivial).1, (h6.alone trivial).2⟩

/-- A schedule that visits all nodes of a chunk, one after the other. -/
def plainChunk (dist : List Nat) (chunks c : Nat) (reads : Reads) : ChunkSchedule :=
  ⟨fun p => (List.range' (lrFrom (localN dist p) chunks c) (lrFrom (localN dist p) chunks (c + 1) - lrFrom (localN dist p) chunks c)).map
      fun u => ⟨u, fun l => l, fun _ => false, reads⟩, fun _ _ _ => true,
    plainSync (fun p => lrFrom (localN dist p) chunks c) (fun p => lrFrom (localN dist p) chunks (c + 1))⟩

theorem plainChunk_ok {c : Nat} (hc : c < cfg.chunks) {reads : Reads} (h : ∀ view weights room, reads = .stale view weights room → ∀ l, view l < cfg.k) :
    (plainChunk dist cfg.chunks c reads).Ok dist cfg c := by
  refine ⟨_, _, fun p _ => localRange_eq (by omega) hc, fun p _ v hv => ?_, plainSync_ok _ _⟩
  obtain ⟨u, hu, rfl⟩ := List.mem_map.1 hv
  have := List.mem_range'_1.1 hu
  exact ⟨this.1, by show u < _; omega, fun l => List.Perm.refl l, h⟩

theorem plainChunk_exact (chunks c : Nat) : (plainChunk dist chunks c .exact).Exact dist := by
  intro p _ v hv
  obtain ⟨u, hu, rfl⟩ := List.mem_map.1 hv
  rfl

/-- A star whose leaves 0 and 1 have weight 2 and whose centre 2 has weight 1, on one process. -/
def heavy1 : Nat → Input := fun _ => ⟨[0, 1, 2, 4], [2, 2, 0, 1], [2, 2, 1], []⟩

/-- The same star on two processes. -/
def heavy2 : Nat → Input := fun p => if p = 0 then ⟨[0, 1], [2], [2], []⟩ else ⟨[0, 1, 3], [2, 0, 1], [2, 1], []⟩

def heavyWeight (a : Nat) : Int := if a = 2 then 1 else 2

theorem heavy1_input : LPInput [0, 3] heavy1 (imported [0, 3] heavy1) heavyWeight where
  world := world_imported (by decide)
    (fun
      | 0, _ => ⟨by decide, by decide, by decide, by decide, by decide, by decide, by decide, by decide, by decide, by decide, by decide⟩)
    (fun
      | 0, _ => ⟨by decide, by decide, fun w hw => by
          have : w ∈ ([2, 2, 1] : List Int) ∨ w ∈ ([] : List Int) := hw
          simp at this; omega, by decide⟩)
  undirected := by unfold Undirected; decide
  loopFree := by unfold LoopFree; decide
  fits := by unfold SmallDegrees; decide
  edges := by unfold NonnegEdges; decide
  weights := by unfold HasWeights; decide
  nonneg := by decide

theorem heavy2_input : LPInput [0, 1, 3] heavy2 (imported [0, 1, 3] heavy2) heavyWeight where
  world := world_imported (by decide)
    (fun
      | 0, _ => ⟨by decide, by decide, by decide, by decide, by decide, by decide, by decide, by decide, by decide, by decide, by decide⟩
      | 1, _ => ⟨by decide, by decide, by decide, by decide, by decide, by decide, by decide, by decide, by decide, by decide, by decide⟩)
    (fun
      | 0, _ => ⟨by decide, by decide, fun w hw => by
          have : w ∈ ([2] : List Int) ∨ w ∈ ([] : List Int) := hw
          simp at this; omega, by decide⟩
      | 1, _ => ⟨by decide, by decide, fun w hw => by
          have : w ∈ ([2, 1] : List Int) ∨ w ∈ ([] : List Int) := hw
          simp at this; omega, by decide⟩)
  undirected := by unfold Undirected; decide
  loopFree := by unfold LoopFree; decide
  fits := by unfold SmallDegrees; decide
  edges := by unfold NonnegEdges; decide
  weights := by unfold HasWeights; decide
  nonneg := by decide

/-- The path 1 - 0 - 2 - 3, whose middle edge has weight 2; nodes 1 and 3 have weight 5. -/
def path2 : Nat → Input := fun p => if p = 0 then ⟨[0, 2, 3], [2, 1, 0], [1, 5], [2, 1, 1]⟩ else ⟨[0, 2, 3], [0, 3, 2], [1, 5], [2, 1, 1]⟩

def pathWeight (a : Nat) : Int := if a % 2 = 0 then 1 else 5

/-- Each process has its own block. -/
def halves (a : Nat) : Nat := if a < 2 then 0 else 1

theorem path2_input : LPInput [0, 2, 4] path2 (imported [0, 2, 4] path2) pathWeight where
  world := world_imported (by decide)
    (fun
      | 0, _ => ⟨by decide, by decide, by decide, by decide, by decide, by decide, by decide, by decide, by decide, by decide, by decide⟩
      | 1, _ => ⟨by decide, by decide, by decide, by decide, by decide, by decide, by decide, by decide, by decide, by decide, by decide⟩)
    (fun
      | 0, _ => ⟨by decide, by decide, fun w hw => by
          have : w ∈ ([1, 5] : List Int) ∨ w ∈ ([2, 1, 1] : List Int) := hw
          simp at this; omega, by decide⟩
      | 1, _ => ⟨by decide, by decide, fun w hw => by
          have : w ∈ ([1, 5] : List Int) ∨ w ∈ ([2, 1, 1] : List Int) := hw
          simp at this; omega, by decide⟩)
  undirected := by unfold Undirected; decide
  loopFree := by unfold LoopFree; decide
  fits := by unfold SmallDegrees; decide
  edges := by unfold NonnegEdges; decide
  weights := by unfold HasWeights; decide
  nonneg := by decide

/-- The blocks of all nodes and the block weights on each process. -/
def batchSummary (dist : List Nat) (k : Nat) (r : Option (Nat → BatchState)) : Option (List Nat × List (List Int)) :=
  r.map fun r => ((List.range (procs dist)).flatMap fun p => (List.range (localN dist p)).map (r p).loc.part,
    (List.range (procs dist)).map fun p => (List.range k).map (r p).loc.weights)

/-- The hypotheses of the theorems hold for this star and two chunks. -/
example : LPInput [0, 3] heavy1 (imported [0, 3] heavy1) heavyWeight ∧
    (∀ t c, c < 2 → ((fun _ c => plainChunk [0, 3] 2 c .exact : Nat → Nat → ChunkSchedule) t c).Ok [0, 3] ⟨2, fun _ => 4, 5, 2, 2, true⟩ c) ∧
    Agree [0, 3] (imported [0, 3] heavy1) heavyWeight 2 (knownPart (imported [0, 3] heavy1) leaves)
      (fun _ => blockWeight [0, 3] heavyWeight leaves) leaves ∧ (∀ a, a < globalN [0, 3] → leaves a < 2) :=
  ⟨heavy1_input, fun _ c hc => plainChunk_ok (cfg := ⟨2, fun _ => 4, 5, 2, 2, true⟩) hc (by intro _ _ _ h; cases h), known_agree _ _ _, by decide⟩

/-- One process with one thread moves one of the leaves; the cut was 2 and is 1. -/
example : batchSummary [0, 3] 2 (batchRefine? 1 ⟨2, fun _ => 4, 5, 2, 2, true⟩ (imported [0, 3] heavy1) (fun _ c => plainChunk [0, 3] 2 c .exact)
      (knownPart (imported [0, 3] heavy1) leaves) fun _ => blockWeight [0, 3] heavyWeight leaves) = some ([1, 0, 1], [[2, 3]]) := by
  decide +kernel

/-- Two processes that do not ignore probabilities: both leaves together are too heavy, no move is kept. -/
example : batchSummary [0, 1, 3] 2 (batchRefine? 2 ⟨2, fun _ => 4, 5, 1, 2, false⟩ (imported [0, 1, 3] heavy2)
      (fun _ c => plainChunk [0, 1, 3] 1 c .exact)
      (knownPart (imported [0, 1, 3] heavy2) leaves) fun _ => blockWeight [0, 1, 3] heavyWeight leaves) = some ([0, 0, 1], [[4, 1], [4, 1]]) := by
  decide +kernel

/-- **C79**, probabilities are ignored unless the user asks for them: on two processes with one thread each, a block becomes heavier than its
limit although no block was too heavy before. -/
theorem C79_overload : ∃ (dist : List Nat) (inp : Nat → Input) (g : Nat → DGraph) (Wt : Nat → Int) (cfg : BatchConfig)
    (sch : Nat → Nat → ChunkSchedule) (P : Nat → Nat) (part : Nat → Nat → Nat) (weights : Nat → Nat → Int) (r : Nat → BatchState),
    LPInput dist inp g Wt ∧ cfg.ignoreProbabilities = true ∧ (∀ t c, c < cfg.chunks → (sch t c).Ok dist cfg c) ∧
      (∀ t c, c < cfg.chunks → (sch t c).Exact dist) ∧ Agree dist g Wt cfg.k part weights P ∧ (∀ a, a < globalN dist → P a < cfg.k) ∧
      (∀ b, b < cfg.k → blockWeight dist Wt P b ≤ cfg.limit b) ∧
      batchRefine? (procs dist) cfg g sch part weights = some r ∧ cfg.limit 1 < (r 0).loc.weights 1 := by
  have h : (batchRefine? 2 ⟨2, fun _ => 4, 1, 1, 2, true⟩ (imported [0, 1, 3] heavy2) (fun _ c => plainChunk [0, 1, 3] 1 c .exact)
      (knownPart (imported [0, 1, 3] heavy2) leaves) fun _ => blockWeight [0, 1, 3] heavyWeight leaves).map (fun r => (r 0).loc.weights 1) =
      some 5 := by
    decide +kernel
  obtain ⟨r, h1, h2⟩ := Option.map_eq_some_iff.1 h
  exact ⟨[0, 1, 3], heavy2, imported [0, 1, 3] heavy2, heavyWeight, ⟨2, fun _ => 4, 1, 1, 2, true⟩, fun _ c => plainChunk [0, 1, 3] 1 c .exact,
    leaves, _, _, r, heavy2_input, rfl, fun _ c hc => plainChunk_ok (cfg := ⟨2, fun _ => 4, 1, 1, 2, true⟩) hc (by intro _ _ _ h; cases h),
    fun _ c _ => plainChunk_exact _ _, known_agree _ _ _, by decide, by decide +kernel, h1, by rw [h2]; decide⟩

/-- **C79**, two threads of one process may overload a block: both check the weight of the block before one of them changes it. -/
theorem C79_two_threads_overload : ∃ (dist : List Nat) (inp : Nat → Input) (g : Nat → DGraph) (Wt : Nat → Int) (cfg : BatchConfig)
    (sch : Nat → Nat → ChunkSchedule) (P : Nat → Nat) (part : Nat → Nat → Nat) (weights : Nat → Nat → Int) (r : Nat → BatchState),
    LPInput dist inp g Wt ∧ procs dist = 1 ∧ cfg.ignoreProbabilities = true ∧ (∀ t c, c < cfg.chunks → (sch t c).Ok dist cfg c) ∧
      Agree dist g Wt cfg.k part weights P ∧ (∀ a, a < globalN dist → P a < cfg.k) ∧
      (∀ b, b < cfg.k → blockWeight dist Wt P b ≤ cfg.limit b) ∧
      batchRefine? (procs dist) cfg g sch part weights = some r ∧ cfg.limit 1 < (r 0).loc.weights 1 := by
  have h : (batchRefine? 1 ⟨2, fun _ => 4, 1, 1, 2, true⟩ (imported [0, 3] heavy1)
      (fun _ c => plainChunk [0, 3] 1 c (.stale leaves (fun b => if b = 0 then 4 else 1) 1))
      (knownPart (imported [0, 3] heavy1) leaves) fun _ => blockWeight [0, 3] heavyWeight leaves).map (fun r => (r 0).loc.weights 1) =
      some 5 := by
    decide +kernel
  obtain ⟨r, h1, h2⟩ := Option.map_eq_some_iff.1 h
  exact ⟨[0, 3], heavy1, imported [0, 3] heavy1, heavyWeight, ⟨2, fun _ => 4, 1, 1, 2, true⟩,
    fun _ c => plainChunk [0, 3] 1 c (.stale leaves (fun b => if b = 0 then 4 else 1) 1),
    leaves, _, _, r, heavy1_input, rfl, rfl, fun _ c hc => plainChunk_ok (cfg := ⟨2, fun _ => 4, 1, 1, 2, true⟩) hc (by
      intro _ _ _ h l; injection h with h; subst h; unfold leaves; split <;> decide),
    known_agree _ _ _, by decide, by decide +kernel, h1, by rw [h2]; decide⟩

/-- **C79**, moves of different processes at the same time may make the cut worse, even if probabilities are not ignored and no block is too
heavy: in the end the cut is that of `P'`. -/
theorem C79_worse_cut : ∃ (dist : List Nat) (inp : Nat → Input) (g : Nat → DGraph) (Wt : Nat → Int) (cfg : BatchConfig)
    (sch : Nat → Nat → ChunkSchedule) (P P' : Nat → Nat) (part : Nat → Nat → Nat) (weights : Nat → Nat → Int) (r : Nat → BatchState),
    LPInput dist inp g Wt ∧ cfg.ignoreProbabilities = false ∧ (∀ t c, c < cfg.chunks → (sch t c).Ok dist cfg c) ∧
      (∀ t c, c < cfg.chunks → (sch t c).Exact dist) ∧ Agree dist g Wt cfg.k part weights P ∧ (∀ a, a < globalN dist → P a < cfg.k) ∧
      (∀ b, b < cfg.k → blockWeight dist Wt P b ≤ cfg.limit b) ∧
      batchRefine? (procs dist) cfg g sch part weights = some r ∧
      (∀ p, p < procs dist → ∀ u, u < localN dist p → (r p).loc.part u = P' (first dist p + u)) ∧ cut dist inp P < cut dist inp P' := by
  have h : (batchRefine? 2 ⟨2, fun _ => 8, 1, 1, 2, false⟩ (imported [0, 2, 4] path2) (fun _ c => plainChunk [0, 2, 4] 1 c .exact)
      (knownPart (imported [0, 2, 4] path2) halves) fun _ => blockWeight [0, 2, 4] pathWeight halves).map
        (fun r => ((r 0).loc.part 0, (r 0).loc.part 1, (r 1).loc.part 0, (r 1).loc.part 1)) = some (1, 0, 0, 1) := by
    decide +kernel
  obtain ⟨r, h1, h2⟩ := Option.map_eq_some_iff.1 h
  injection h2 with e0 h2
  injection h2 with e1 h2
  injection h2 with e2 e3
  refine ⟨[0, 2, 4], path2, imported [0, 2, 4] path2, pathWeight, ⟨2, fun _ => 8, 1, 1, 2, false⟩, fun _ c => plainChunk [0, 2, 4] 1 c .exact,
    halves, fun a => if a = 0 ∨ a = 3 then 1 else 0, _, _, r, path2_input, rfl,
    fun _ c hc => plainChunk_ok (cfg := ⟨2, fun _ => 8, 1, 1, 2, false⟩) hc (by intro _ _ _ h; cases h),
    fun _ c _ => plainChunk_exact _ _, known_agree _ _ _, by decide, by decide +kernel, h1, ?_, by decide +kernel⟩
  have key : ∀ p, p < 2 → ∀ u, u < 2 → (r p).loc.part u = if first [0, 2, 4] p + u = 0 ∨ first [0, 2, 4] p + u = 3 then 1 else 0
    | 0, _, 0, _ => e0
    | 0, _, 1, _ => e1
    | 1, _, 0, _ => e2
    | 1, _, 1, _ => e3
  intro p hp u hu
  have : p = 0 ∨ p = 1 := by have : p < 2 := hp; omega
  rcases this with rfl | rfl
  · exact key 0 (by decide) u hu
  · exact key 1 (by decide) u hu

end Verif.Dist
