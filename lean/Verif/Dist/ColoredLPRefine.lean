import Verif.Dist.ColoredLPLocal
import Verif.Dist.ContractQuotient

/-!
# Phases and iterations of the coloured label propagation
-/

namespace Verif.Dist
open Verif Verif.Math Verif.Grid

variable {dist : List Nat} {inp : Nat → Input} {g : Nat → DGraph} {P : Nat → Nat} {Wt : Nat → Int} {cfg : LPConfig} {ord : ColorOrder}
variable {s : Nat → LPLocal} {bal : Prop}

/-- The nodes of each process are sorted by colours, and nodes with the same colour are not neighbours. -/
structure ColorOrder.Ok (dist : List Nat) (inp : Nat → Input) (ord : ColorOrder) : Prop where
  bound : ∀ p, p < procs dist → ∀ c, c < ord.colors → ord.start p (c + 1) ≤ localN dist p
  lt : ∀ p, p < procs dist → ∀ i, i < localN dist p → ord.node p i < localN dist p
  inj : ∀ p, p < procs dist → ∀ i j, i < localN dist p → j < localN dist p → ord.node p i = ord.node p j → i = j
  apart : ∀ c, c < ord.colors → ∀ p q, p < procs dist → q < procs dist → ∀ i j, ord.start p c ≤ i → i < ord.start p (c + 1) →
    ord.start q c ≤ j → j < ord.start q (c + 1) → ∀ w, (first dist p + ord.node p i, first dist q + ord.node q j, w) ∉ edges dist inp

theorem ColorOrder.Ok.colorClass (O : ord.Ok dist inp) {c : Nat} (hc : c < ord.colors) :
    ColorClass dist inp ord.node (fun p => ord.start p c) (fun p => ord.start p (c + 1)) where
  lt := fun p hp i _ h => O.lt p hp i (Nat.lt_of_lt_of_le h (O.bound p hp c hc))
  inj := fun p hp i j _ h1 _ h2 => O.inj p hp i j (Nat.lt_of_lt_of_le h1 (O.bound p hp c hc)) (Nat.lt_of_lt_of_le h2 (O.bound p hp c hc))
  apart := O.apart c hc

/-- Everything is done in some order: threads execute an exchange, messages are handled, candidates are sorted. -/
structure RoundSchedule.Ok (dist : List Nat) (fr ub : Nat → Nat) (sch : RoundSchedule) : Prop where
  sync : ∀ t, (sch.sync t).Ok dist fr ub
  sort : ∀ p l, (sch.sort p l).Perm l
  sort' : ∀ p l, (sch.sort' p l).Perm l

/-- Everything is done in some order while the colour `c` is handled. -/
structure PhaseSchedule.Ok (dist : List Nat) (ord : ColorOrder) (c : Nat) (sch : PhaseSchedule) : Prop where
  find : ∀ p i l, ((sch.find p).order i l).Perm l
  round : ∀ r, (sch.round r).Ok dist (fun p => ord.start p c) (fun p => ord.start p (c + 1))

/-- The configuration does not lead to an access out of bounds, to a failed assertion or to wrong block weights. -/
structure LPConfig.Ok (cfg : LPConfig) (N : Nat) : Prop where
  best : cfg.strategy = .best → cfg.track = true ∧ 2 ^ Nat.log2 N = N
  locally : cfg.strategy = .locally → cfg.track = true ∧ cfg.rounds ≤ 1

/-- The configuration guarantees that blocks do not become too heavy. -/
def LPConfig.Balanced (cfg : LPConfig) (N : Nat) : Prop := cfg.strategy ≠ .locally ∧ (cfg.strategy = .best → 2 ≤ N)

/-- The state between two colours. -/
structure Start (dist : List Nat) (g : Nat → DGraph) (Wt : Nat → Int) (cfg : LPConfig) (ord : ColorOrder) (P : Nat → Nat) (s : Nat → LPLocal) :
    Prop where
  agree : Agree dist g Wt cfg.k (fun p => (s p).part) (fun p => (s p).weights) P
  blocks : ∀ a, a < globalN dist → P a < cfg.k
  next : ∀ p, p < procs dist → ∀ i, i < localN dist p → (s p).next i = some (P (first dist p + ord.node p i))
  deltas : cfg.track = true → ∀ p, p < procs dist → ∀ b, (s p).deltas b = 0

/-- The graph. -/
structure LPInput (dist : List Nat) (inp : Nat → Input) (g : Nat → DGraph) (Wt : Nat → Int) : Prop where
  world : World dist inp g
  undirected : Undirected dist inp
  loopFree : LoopFree dist inp
  fits : SmallDegrees dist inp
  edges : NonnegEdges dist inp
  weights : HasWeights dist inp Wt
  nonneg : ∀ a, a < globalN dist → 0 ≤ Wt a

theorem LPInput.symmetric (I : LPInput dist inp g Wt) : Symmetric dist inp := by
  intro a b h
  obtain ⟨w, hw⟩ := (isEdge_edges I.world.valid).1 h
  exact (isEdge_edges I.world.valid).2 ⟨w, I.undirected.subset (List.mem_map.2 ⟨(a, b, w), hw, rfl⟩)⟩

theorem LPInput.rounds (I : LPInput dist inp g Wt) (hcfg : cfg.Ok (procs dist)) (O : ord.Ok dist inp) {c : Nat} (hc : c < ord.colors)
    (hst : cfg.strategy ≠ .locally) {sch : Nat → RoundSchedule}
    (hsch : ∀ r, (sch r).Ok dist (fun p => ord.start p c) (fun p => ord.start p (c + 1))) : ∀ (L : List Nat) (P : Nat → Nat) (s : Nat → LPLocal),
    Mid dist inp g Wt cfg.k ord.node (fun p => ord.start p c) (fun p => ord.start p (c + 1)) P s →
    ∃ s' P', L.foldlM (fun s r => performMoves? (procs dist) cfg g ord c (sch r) s) s = some s' ∧
      Mid dist inp g Wt cfg.k ord.node (fun p => ord.start p c) (fun p => ord.start p (c + 1)) P' s' ∧
      Improves dist inp Wt cfg (cfg.Balanced (procs dist)) P s P' s' ∧
      Frame dist ord.node (fun p => ord.start p c) (fun p => ord.start p (c + 1)) P s P' s'
  | [], P, s, M => ⟨s, P, rfl, M, Improves.refl fun _ _ => rfl, Frame.refl fun _ _ => rfl⟩
  | r :: L, P, s, M => by
    have K := O.colorClass hc
    have h : ∃ s' P', performMoves? (procs dist) cfg g ord c (sch r) s = some s' ∧
        Mid dist inp g Wt cfg.k ord.node (fun p => ord.start p c) (fun p => ord.start p (c + 1)) P' s' ∧
        Improves dist inp Wt cfg (cfg.Balanced (procs dist)) P s P' s' ∧
        Frame dist ord.node (fun p => ord.start p c) (fun p => ord.start p (c + 1)) P s P' s' := by
      unfold performMoves?
      dsimp only
      cases hs : cfg.strategy with
      | probabilistic =>
        exact I.world.probabilistic_moves I.symmetric I.undirected I.loopFree I.weights (fr := fun p c => ord.start p c)
          (ub := fun p c => ord.start p (c + 1)) K (sch r).flip (hsch r).sync cfg.attempts 0 P s M
      | best =>
        exact I.world.best_moves I.undirected I.loopFree I.weights I.nonneg (fr := fun p c => ord.start p c)
          (ub := fun p c => ord.start p (c + 1)) K (hcfg.best hs).1 (hcfg.best hs).2 (hsch r).sort (hsch r).sort' (fun h => h.2 hs) M
      | locally => exact absurd hs hst
    obtain ⟨s1, P1, h1, h2, h3, h4⟩ := h
    obtain ⟨s', P', a1, a2, a3, a4⟩ := I.rounds hcfg O hc hst hsch L P1 s1 h2
    rw [List.foldlM_cons, h1]
    exact ⟨s', P', a1, a2, h3.trans a3, h4.trans a4⟩

theorem LPInput.phase (I : LPInput dist inp g Wt) (hcfg : cfg.Ok (procs dist)) (O : ord.Ok dist inp) {c : Nat} (hc : c < ord.colors)
    {sch : PhaseSchedule} (hsch : sch.Ok dist ord c) (S : Start dist g Wt cfg ord P s) :
    ∃ s' n P', lpPhase? (procs dist) cfg g ord sch c s = some (s', n) ∧ Start dist g Wt cfg ord P' s' ∧
      Improves dist inp Wt cfg (cfg.Balanced (procs dist)) P s P' s' := by
  have K := O.colorClass hc
  have W := I.world
  have hrange : ∀ p i, i ∈ List.range' (ord.start p c) (ord.start p (c + 1) - ord.start p c) ↔ ord.start p c ≤ i ∧ i < ord.start p (c + 1) := by
    intro p i; rw [List.mem_range'_1]; omega
  obtain ⟨t, h1, h2⟩ := forAll_ok (LPLocal.zero, 0) (N := procs dist)
    (f := fun p => lpFind? cfg (g p) (ord.node p) (ord.start p c) (ord.start p (c + 1)) (sch.find p) (s p))
    (Q := fun p r => r.1.part = (s p).part ∧ r.1.weights = (s p).weights ∧ r.1.gained = (s p).gained ∧
      (∀ i, ¬ (ord.start p c ≤ i ∧ i < ord.start p (c + 1)) → r.1.next i = (s p).next i) ∧
      (∀ i, ord.start p c ≤ i → i < ord.start p (c + 1) → r.1.next i = some (P (first dist p + ord.node p i)) ∨
        Good dist inp P cfg.k (first dist p + ord.node p i) (r.1.next i) (r.1.gains i)) ∧
      (cfg.track = true → ∀ b, r.1.deltas b = ((List.range' (ord.start p c) (ord.start p (c + 1) - ord.start p c)).map fun i =>
        (if r.1.next i = some b then Wt (first dist p + ord.node p i) else 0) -
        (if P (first dist p + ord.node p i) = b then Wt (first dist p + ord.node p i) else 0)).sum)) (by
      intro p hp
      obtain ⟨r, a1, a2, a3, a4, a5, a6, _, a8⟩ := W.find_fold I.fits I.edges I.weights S.blocks hp (hsch.find p)
        (List.range' (ord.start p c) (ord.start p (c + 1) - ord.start p c)) (s p, 0) List.nodup_range'
        (fun i hi => by rw [hrange] at hi; exact K.lt p hp i hi.1 hi.2)
        (S.agree p hp).1
        (fun i hi => by
          rw [hrange] at hi
          exact S.next p hp i (Nat.lt_of_lt_of_le hi.2 (O.bound p hp c hc)))
      refine ⟨r, a1, a2, a3, a4, fun i hi => a5 i fun h => hi ((hrange p i).1 h), fun i hi1 hi2 => a6 i ((hrange p i).2 ⟨hi1, hi2⟩),
        fun ht b => ?_⟩
      rw [a8 ht b, S.deltas ht p hp b, Int.zero_add])
  have M : Mid dist inp g Wt cfg.k ord.node (fun p => ord.start p c) (fun p => ord.start p (c + 1)) P (fun p => (t p).1) := by
    refine ⟨fun p hp => ?_, S.blocks, fun p hp i hi1 hi2 => Or.inr ((h2 p hp).2.2.2.2.1 i hi1 hi2)⟩
    have := S.agree p hp
    dsimp only at this ⊢
    rw [(h2 p hp).1, (h2 p hp).2.1]
    exact this
  have hrounds : ∃ s' P', (List.range cfg.rounds).foldlM (fun s r => performMoves? (procs dist) cfg g ord c (sch.round r) s) (fun p => (t p).1) =
        some s' ∧
      Mid dist inp g Wt cfg.k ord.node (fun p => ord.start p c) (fun p => ord.start p (c + 1)) P' s' ∧
      Improves dist inp Wt cfg (cfg.Balanced (procs dist)) P (fun p => (t p).1) P' s' ∧
      Frame dist ord.node (fun p => ord.start p c) (fun p => ord.start p (c + 1)) P (fun p => (t p).1) P' s' := by
    by_cases hst : cfg.strategy = .locally
    · obtain ⟨ht, hr⟩ := hcfg.locally hst
      rcases Nat.eq_zero_or_pos cfg.rounds with h0 | h0
      · rw [h0]
        exact ⟨_, P, rfl, M, Improves.refl fun _ _ => rfl, Frame.refl fun _ _ => rfl⟩
      · have e : cfg.rounds = 1 := by omega
        obtain ⟨s', P', a1, a2⟩ := W.local_moves (bal := cfg.Balanced (procs dist)) I.symmetric I.undirected I.loopFree
          (fr := fun p c => ord.start p c) (ub := fun p c => ord.start p (c + 1)) K ((hsch.round 0).sync 0) ht (fun h => h.1 hst) M
          (fun p hp i hi1 hi2 => by
            rcases (h2 p hp).2.2.2.2.1 i hi1 hi2 with h | ⟨b, h, _⟩
            · rw [h]; exact Option.some_ne_none _
            · rw [h]; exact Option.some_ne_none _)
          (fun p hp b => (h2 p hp).2.2.2.2.2 ht b)
        refine ⟨s', P', ?_, a2⟩
        rw [e, show List.range 1 = [0] from rfl, List.foldlM_cons]
        unfold performMoves?
        rw [hst]
        dsimp only
        rw [a1]
        rfl
    · exact I.rounds hcfg O hc hst hsch.round (List.range cfg.rounds) P _ M
  obtain ⟨s', P', h3, h4, h5, h6⟩ := hrounds
  have himp : Improves dist inp Wt cfg (cfg.Balanced (procs dist)) P s P (fun p => (t p).1) := Improves.refl fun p hp => (h2 p hp).2.2.1
  refine ⟨fun p =>
    let s1 := resetNext (ord.node p) (ord.start p c) (ord.start p (c + 1)) (s' p)
    if cfg.track then { s1 with deltas := fun _ => 0 } else s1, ((List.range (procs dist)).map fun p => (t p).2).sum, P', ?_, ?_,
    (himp.trans h5).trans (Improves.refl fun p hp => ?_)⟩
  · unfold lpPhase?
    rw [h1, Option.bind_some, h3]
    rfl
  · refine ⟨fun p hp => ?_, h4.blocks, fun p hp i hi => ?_, fun ht p hp b => ?_⟩
    · have := h4.agree p hp
      dsimp only at this ⊢
      unfold resetNext
      split
      · exact this
      · exact this
    · have key : (resetNext (ord.node p) (ord.start p c) (ord.start p (c + 1)) (s' p)).next i = some (P' (first dist p + ord.node p i)) := by
        unfold resetNext
        dsimp only
        by_cases hin : ord.start p c ≤ i ∧ i < ord.start p (c + 1)
        · rw [if_pos hin]
          have := (h4.agree p hp).1 _ _ ((W.represents p hp).own _ (O.lt p hp i hi))
          dsimp only at this
          rw [this]
        · rw [if_neg hin, h6.next p hp i hin]
          rw [(h2 p hp).2.2.2.1 i hin, S.next p hp i hi]
          congr 1
          refine (h6.part _ fun q j hq hj1 hj2 e => ?_).symm
          have hjn := Nat.lt_of_lt_of_le hj2 (O.bound q hq c hc)
          have hqp : p = q := by
            rw [← (W.own_at hp (O.lt p hp i hi)).1, e]
            exact (W.own_at hq (O.lt q hq j hjn)).1
          subst hqp
          have := O.inj p hp i j hi hjn (by omega)
          subst this
          exact hin ⟨hj1, hj2⟩
      dsimp only
      split
      · exact key
      · exact key
    · dsimp only
      rw [if_pos ht]
  · dsimp only
    unfold resetNext
    split <;> rfl

theorem LPInput.iteration (I : LPInput dist inp g Wt) (hcfg : cfg.Ok (procs dist)) (O : ord.Ok dist inp) (excluded : Nat → Bool)
    {sch : Nat → PhaseSchedule} (hsch : ∀ c, (sch c).Ok dist ord c) : ∀ (L : List Nat) (x : (Nat → LPLocal) × Nat) (P : Nat → Nat),
    (∀ c, c ∈ L → c < ord.colors) → Start dist g Wt cfg ord P x.1 →
    ∃ y P', L.foldlM (fun x c => if excluded c then some x
      else (lpPhase? (procs dist) cfg g ord (sch c) c x.1).map fun y => (y.1, x.2 + y.2)) x = some y ∧ Start dist g Wt cfg ord P' y.1 ∧
      Improves dist inp Wt cfg (cfg.Balanced (procs dist)) P x.1 P' y.1
  | [], x, P, _, S => ⟨x, P, rfl, S, Improves.refl fun _ _ => rfl⟩
  | c :: L, x, P, hL, S => by
    have hL' : ∀ c, c ∈ L → c < ord.colors := fun c hc => hL c (List.mem_cons_of_mem _ hc)
    rw [List.foldlM_cons]
    by_cases he : excluded c = true
    · rw [if_pos he]
      exact I.iteration hcfg O excluded hsch L x P hL' S
    · rw [if_neg he]
      obtain ⟨s1, n, P1, h1, h2, h3⟩ := I.phase hcfg O (hL c List.mem_cons_self) (hsch c) S
      obtain ⟨y, P', h4, h5, h6⟩ := I.iteration hcfg O excluded hsch L (s1, x.2 + n) P1 hL' h2
      rw [h1]
      exact ⟨y, P', h4, h5, h3.trans h6⟩

theorem LPInput.iterations (I : LPInput dist inp g Wt) (hcfg : cfg.Ok (procs dist)) (O : ord.Ok dist inp) (excluded : Nat → Bool)
    {sch : Nat → Nat → PhaseSchedule} (hsch : ∀ t c, (sch t c).Ok dist ord c) : ∀ (m t : Nat) (P : Nat → Nat) (s : Nat → LPLocal),
    Start dist g Wt cfg ord P s → ∃ s' P', lpIterations? (procs dist) cfg g ord excluded sch m t s = some s' ∧
      Start dist g Wt cfg ord P' s' ∧ Improves dist inp Wt cfg (cfg.Balanced (procs dist)) P s P' s'
  | 0, _, P, s, S => ⟨s, P, rfl, S, Improves.refl fun _ _ => rfl⟩
  | m + 1, t, P, s, S => by
    obtain ⟨y, P1, h1, h2, h3⟩ := I.iteration hcfg O excluded (hsch t) (List.range ord.colors) (s, 0) P (fun c hc => List.mem_range.1 hc) S
    unfold lpIterations? lpIteration?
    rw [h1, Option.bind_some]
    by_cases hy : y.2 % 4294967296 = 0
    · rw [if_pos hy]
      exact ⟨_, P1, rfl, h2, h3⟩
    · rw [if_neg hy]
      obtain ⟨s', P', a1, a2, a3⟩ := I.iterations hcfg O excluded hsch m (t + 1) P1 y.1 h2
      exact ⟨s', P', a1, a2, h3.trans a3⟩

end Verif.Dist
