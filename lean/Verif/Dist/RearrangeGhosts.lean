import Verif.Dist.RearrangeLocal

/-!
# The new numbers of the ghost nodes
-/

namespace Verif.Dist
open Verif.Math Verif.Permute

/-- The message is about the ghost node `l`, whose new number is `F l`. -/
structure Hits (g : DGraph) (F : Nat → Nat) (msg : Nat × Nat × Nat) (l : Nat) : Prop where
  ghost : g.n ≤ l ∧ l < g.totalN
  found : ∃ off, g.dist[msg.1]? = some off ∧ g.globalToGhost.lookup (off + msg.2.1 + 1) = some l ∧ off + msg.2.2 = F l

/-- The ghost nodes in `D` have their new numbers. -/
structure LabelsOf (g : DGraph) (F : Nat → Nat) (D : List Nat) (s : Labels) : Prop where
  ghosts : ∀ l, l ∈ D → g.n ≤ l ∧ l < g.totalN
  toGlobal : ∀ l, l ∈ D → s.toGlobal (l - g.n) = F l
  toGhost : ∀ k l, s.toGhost.lookup k = some l ↔ l ∈ D ∧ k = F l + 1

theorem lookup_cons_iff {k a : Nat} {l b : Nat} {t : List (Nat × Nat)} :
    List.lookup k ((a, b) :: t) = some l ↔ (k = a ∧ l = b) ∨ (k ≠ a ∧ List.lookup k t = some l) := by
  by_cases h : k = a
  · subst h
    simp only [List.lookup_cons_self, Option.some.injEq, true_and, ne_eq, not_true_eq_false, false_and, or_false]
    exact eq_comm
  · rw [List.lookup_cons]
    have : (k == a) = false := by simpa using h
    rw [this]
    simp [h]

theorem relabel_step {g : DGraph} {F : Nat → Nat} (hF : ∀ l l', g.n ≤ l → l < g.totalN → g.n ≤ l' → l' < g.totalN → F l = F l' → l = l')
    {D : List Nat} {s : Labels} (I : LabelsOf g F D s) {msg : Nat × Nat × Nat} {l : Nat} (h : Hits g F msg l) :
    ∃ s', relabelGhost? g s msg = some s' ∧ LabelsOf g F (l :: D) s' := by
  obtain ⟨⟨h1, h2⟩, off, h3, h4, h5⟩ := h
  have h6 : l - g.n < g.ghostN := by unfold DGraph.totalN at h2; omega
  unfold relabelGhost?
  rw [h3, Option.bind_some, h4, Option.bind_some, if_pos ⟨h1, h6⟩]
  refine ⟨_, rfl, ⟨?_, ?_, ?_⟩⟩
  · intro l' hl'
    rcases List.mem_cons.1 hl' with rfl | hl'
    · exact ⟨h1, h2⟩
    · exact I.ghosts l' hl'
  · intro l' hl'
    show upd s.toGlobal (l - g.n) (off + msg.2.2) (l' - g.n) = F l'
    by_cases he : l' = l
    · rw [he, upd_same]; exact h5
    · have hl' := (List.mem_cons.1 hl').resolve_left he
      have := I.ghosts l' hl'
      rw [upd_ne _ _ (by omega)]
      exact I.toGlobal l' hl'
  · intro k l'
    show List.lookup k (if (s.toGhost.lookup (off + msg.2.2 + 1)).isSome then s.toGhost else (off + msg.2.2 + 1, l) :: s.toGhost) = _ ↔ _
    rw [h5]
    split
    · next hs =>
      obtain ⟨x, hx⟩ := Option.isSome_iff_exists.1 hs
      obtain ⟨hx1, hx2⟩ := (I.toGhost _ _).1 hx
      have hg := I.ghosts x hx1
      have : l = x := hF l x h1 h2 hg.1 hg.2 (by omega)
      subst this
      rw [I.toGhost]
      constructor
      · rintro ⟨h7, h8⟩; exact ⟨List.mem_cons_of_mem _ h7, h8⟩
      · rintro ⟨h7, h8⟩
        rcases List.mem_cons.1 h7 with rfl | h7
        · exact ⟨hx1, h8⟩
        · exact ⟨h7, h8⟩
    · next hs =>
      have hno : ∀ x, x ∈ D → F x ≠ F l := by
        intro x hx he
        rw [Option.not_isSome_iff_eq_none] at hs
        have := (I.toGhost (F l + 1) x).2 ⟨hx, by omega⟩
        rw [hs] at this
        cases this
      rw [lookup_cons_iff, I.toGhost]
      constructor
      · rintro (⟨h7, h8⟩ | ⟨_, h8, h9⟩)
        · exact ⟨h8 ▸ List.mem_cons_self, by rw [h8]; exact h7⟩
        · exact ⟨List.mem_cons_of_mem _ h8, h9⟩
      · rintro ⟨h7, h8⟩
        rcases List.mem_cons.1 h7 with h7 | h7
        · left; exact ⟨by rw [h8, h7], h7⟩
        · right; exact ⟨by have := hno l' h7; omega, h7, h8⟩

theorem relabel_fold {g : DGraph} {F : Nat → Nat} (hF : ∀ l l', g.n ≤ l → l < g.totalN → g.n ≤ l' → l' < g.totalN → F l = F l' → l = l') :
    ∀ (msgs : List (Nat × Nat × Nat)) (D : List Nat) (s : Labels), LabelsOf g F D s → (∀ m, m ∈ msgs → ∃ l, Hits g F m l) →
      ∃ s' D', msgs.foldlM (relabelGhost? g) s = some s' ∧ LabelsOf g F D' s' ∧ (∀ l, l ∈ D → l ∈ D') ∧
        ∀ m l, m ∈ msgs → Hits g F m l → l ∈ D'
  | [], D, s, I, _ => ⟨s, D, rfl, I, fun _ h => h, fun _ _ h => absurd h List.not_mem_nil⟩
  | m :: msgs, D, s, I, hm => by
    obtain ⟨l, hl⟩ := hm m List.mem_cons_self
    obtain ⟨s1, h1, I1⟩ := relabel_step hF I hl
    obtain ⟨s', D', h2, h3, h4, h5⟩ := relabel_fold hF msgs (l :: D) s1 I1 fun m' h => hm m' (List.mem_cons_of_mem _ h)
    refine ⟨s', D', ?_, h3, fun x hx => h4 x (List.mem_cons_of_mem _ hx), ?_⟩
    · rw [List.foldlM_cons, h1]; exact h2
    · intro m' l' hm' hl'
      rcases List.mem_cons.1 hm' with rfl | hm'
      · obtain ⟨_, off, a1, a2, _⟩ := hl
        obtain ⟨_, off', b1, b2, _⟩ := hl'
        rw [a1] at b1
        cases b1
        rw [a2] at b2
        cases b2
        exact h4 l List.mem_cons_self
      · exact h5 m' l' hm' hl'

variable {dist : List Nat} {inp : Nat → Input} {g : Nat → DGraph}

/-- The ghost table finds the ghost nodes. -/
theorem World.ghost_lookup (W : World dist inp g) {me l v : Nat} (hme : me < procs dist) (hl : localN dist me ≤ l)
    (h : (g me).localToGlobal? l = some v) : (g me).globalToGhost.lookup (v + 1) = some l := by
  have R := W.represents me hme
  have V := W.valid me hme
  obtain ⟨h1, h2⟩ := W.node hme h
  rcases h2 with ⟨_, h3, _⟩ | ⟨_, _, h4, q, _, h5, h6⟩
  · omega
  · have hno : ¬ (first dist me ≤ v ∧ v < first dist (me + 1)) := fun hc => h6 (V.owns_unique h5 ((V.owns_iff' hme).2 hc))
    unfold DGraph.globalToLocal? at h1
    have hoff : (g me).offset? = some (first dist me) := by
      unfold DGraph.offset?
      rw [R.rank_eq, R.dist_eq]
      unfold procs at hme
      exact getD_some (by omega)
    rw [hoff, Option.bind_some, R.n_eq, if_neg] at h1
    · exact h1
    · have : localN dist me = first dist (me + 1) - first dist me := rfl
      have := V.sorted me (by unfold procs at hme; exact hme)
      omega

/-- A node of another process with a neighbour of process `me` is a ghost node of `me`, and the other way round. -/
theorem World.touches_ghost (W : World dist inp g) (hsym : Symmetric dist inp) {me p u : Nat} (hme : me < procs dist) (hp : p < procs dist)
    (hne : me ≠ p) (hu : u < localN dist p) :
    touches dist (inp p) u me = true ↔ first dist p + u ∈ foreign dist me (inp me) := by
  have V := W.valid me hme
  have hO : Owns dist p (first dist p + u) := by
    rw [V.owns_iff' hp]; unfold localN at hu; omega
  rw [W.foreign_mem hme]
  constructor
  · intro ht
    refine ⟨?_, fun h => hne (V.owns_unique h hO)⟩
    unfold touches at ht
    rw [List.any_eq_true] at ht
    obtain ⟨x, hx, hx2⟩ := ht
    rw [decide_eq_true_iff] at hx2
    obtain ⟨q, w, hq, hq2, hq3⟩ := hsym (first dist p + u) x.1 ⟨p, x.2, hp, hO, by rw [Nat.add_sub_cancel_left]; exact hx⟩
    have hqe : q = me := V.owns_unique hq2 ((V.owns_iff' hme).2 hx2)
    subst hqe
    exact V.neighbour_mem (by
      have := (V.owns_iff' hme).1 hq2
      unfold localN; omega) hq3
  · rintro ⟨h, _⟩
    obtain ⟨u', w, hu', hw⟩ := V.adjncy_neighbour h
    have hO' : Owns dist me (first dist me + u') := by
      rw [V.owns_iff' hme]; unfold localN at hu'; omega
    obtain ⟨q, w', hq, hq2, hq3⟩ := hsym (first dist me + u') (first dist p + u) ⟨me, w, hme, hO', by rw [Nat.add_sub_cancel_left]; exact hw⟩
    have hqe : q = p := V.owns_unique hq2 hO
    subst hqe
    rw [Nat.add_sub_cancel_left] at hq3
    unfold touches
    rw [List.any_eq_true]
    exact ⟨_, hq3, by rw [decide_eq_true_iff]; exact (V.owns_iff' hme).1 hO'⟩

/-- The new number determines the node. -/
theorem World.renames_inj (W : World dist inp g) {perm : Nat → NodePermutations} {ρ : Nat → Nat} (hp : Permutations dist perm) (hρ : Renames dist perm ρ)
    {q a : Nat} (hq : Owns dist q a) : Owns dist q (ρ a) ∧ (∀ b q', Owns dist q' b → ρ a = ρ b → a = b) ∧
      ρ a = first dist q + (perm q).oldToNew (a - first dist q) := by
  have V0 := W.valid 0 W.some_process
  have key : ∀ {q a}, Owns dist q a → ρ a = first dist q + (perm q).oldToNew (a - first dist q) ∧ a - first dist q < localN dist q ∧ first dist q ≤ a := by
    intro q a h
    have hb := (V0.owns_iff' h.lt).1 h
    have hl : a - first dist q < localN dist q := by unfold localN; omega
    have := hρ q h.lt (a - first dist q) hl
    rw [show first dist q + (a - first dist q) = a by omega] at this
    exact ⟨this, hl, hb.1⟩
  obtain ⟨h1, h2, h3⟩ := key hq
  have hown : ∀ {q a}, Owns dist q a → Owns dist q (ρ a) := by
    intro q a h
    obtain ⟨a1, a2, _⟩ := key h
    rw [V0.owns_iff' h.lt, a1]
    have := (hp q h.lt _ a2).1
    have e : localN dist q = first dist (q + 1) - first dist q := rfl
    omega
  refine ⟨hown hq, ?_, h1⟩
  intro b q' hb he
  have hqq : q = q' := V0.owns_unique (hown hq) (he ▸ hown hb)
  subst hqq
  obtain ⟨b1, b2, b3⟩ := key hb
  rw [h1, b1] at he
  have e1 := (hp q hq.lt _ h2).2
  have e2 := (hp q hq.lt _ b2).2
  have he' : (perm q).oldToNew (a - first dist q) = (perm q).oldToNew (b - first dist q) := by omega
  rw [he', e2] at e1
  omega

/-- All ghost nodes get their new numbers. -/
theorem World.relabelled (W : World dist inp g) (hsym : Symmetric dist inp) {perm : Nat → NodePermutations} {ρ : Nat → Nat}
    (hp : Permutations dist perm) (hρ : Renames dist perm ρ) (z : Nat × Nat) {ex : Nat → Execution}
    (hex : Executions dist (fun _ => 0) (localN dist) ex) {shuffle : List (Nat × Nat × Nat) → List (Nat × Nat × Nat)}
    (hsh : ∀ l, (shuffle l).Perm l) {me : Nat} (hme : me < procs dist) :
    ∃ calls s, exchange? (procs dist) z (fun p => sendBuffers? (ex p).threads (procs dist)
        (toPeMessages? (g p) (fun _ => true) fun u _ => (u, (perm p).oldToNew u)) (ex p).count (ex p).fill) me = some calls ∧
      (shuffle (calls.flatMap fun c => c.2.map fun m => (c.1, m))).foldlM (relabelGhost? (g me))
        ⟨fun i => (g me).ghostToGlobal.getD i 0, []⟩ = some s ∧
      (∀ l, localN dist me ≤ l → l < (g me).totalN → s.toGlobal (l - localN dist me) = ρ (idOf (g me) l)) ∧
      (∀ k l, s.toGhost.lookup k = some l ↔ (localN dist me ≤ l ∧ l < (g me).totalN) ∧ k = ρ (idOf (g me) l) + 1) ∧
      (∀ l l', localN dist me ≤ l → l < (g me).totalN → localN dist me ≤ l' → l' < (g me).totalN →
        ρ (idOf (g me) l) = ρ (idOf (g me) l') → l = l') := by
  have R := W.represents me hme
  have V := W.valid me hme
  obtain ⟨calls, h1, h2⟩ := W.sync_calls z (fun _ _ => true) (fun p u => (perm p).oldToNew u) hex hme
  have hgh : ∀ l, localN dist me ≤ l → l < (g me).totalN → ∃ q, (g me).localToGlobal? l = some (idOf (g me) l) ∧
      idOf (g me) l ∈ foreign dist me (inp me) ∧ Owns dist q (idOf (g me) l) ∧ q ≠ me := by
    intro l hl1 hl2
    obtain ⟨v, q, a1, a2, _, a4, a5⟩ := R.ghost l hl1 hl2
    rw [idOf_of a1]
    exact ⟨q, a1, a2, a4, a5⟩
  have hF : ∀ l l', localN dist me ≤ l → l < (g me).totalN → localN dist me ≤ l' → l' < (g me).totalN →
      ρ (idOf (g me) l) = ρ (idOf (g me) l') → l = l' := by
    intro l l' a1 a2 a3 a4 he
    obtain ⟨q, b1, _, b3, _⟩ := hgh l a1 a2
    obtain ⟨q', c1, _, c3, _⟩ := hgh l' a3 a4
    have := (W.renames_inj hp hρ b3).2.1 _ q' c3 he
    have d1 := R.inverse l _ a2 b1
    have d2 := R.inverse l' _ a4 c1
    rw [this, d2] at d1
    exact (Option.some.inj d1).symm
  have hdist : ∀ q, q < procs dist → (g me).dist[q]? = some (first dist q) := by
    intro q hq
    rw [R.dist_eq]
    unfold procs at hq
    exact getD_some (by omega)
  have hhit : ∀ q u l, q < procs dist → u < localN dist q → localN dist me ≤ l → (g me).localToGlobal? l = some (first dist q + u) →
      Hits (g me) (fun l => ρ (idOf (g me) l)) (q, u, (perm q).oldToNew u) l := by
    intro q u l hq hu hl hg
    refine ⟨⟨by rw [R.n_eq]; exact hl, lt_total hg⟩, first dist q, hdist q hq, W.ghost_lookup hme hl hg, ?_⟩
    show _ = ρ (idOf (g me) l)
    rw [idOf_of hg, hρ q hq u hu]
  obtain ⟨s, D, h3, h4, _, h5⟩ := relabel_fold (g := g me) (F := fun l => ρ (idOf (g me) l))
    (by rw [R.n_eq]; exact hF) (shuffle (calls.flatMap fun c => c.2.map fun m => (c.1, m))) []
    ⟨fun i => (g me).ghostToGlobal.getD i 0, []⟩
    ⟨fun _ h => absurd h List.not_mem_nil, fun _ h => absurd h List.not_mem_nil, fun k l => by simp⟩
    (by
      rintro ⟨q, u, y⟩ hm
      have hm := (hsh _).mem_iff.1 hm
      obtain ⟨c, hc, hm⟩ := List.mem_flatMap.1 hm
      obtain ⟨m, hm, he⟩ := List.mem_map.1 hm
      injection he with e1 e2
      obtain ⟨hq, hu, hy, _, hne, ht⟩ := (h2 q u y).1 ⟨c.2, by rw [← e1]; exact hc, by rw [← e2]; exact hm⟩
      have hf := (W.touches_ghost hsym hme hq hne hu).1 ht
      obtain ⟨l, hl⟩ := (W.mapRemote hme hq (Ne.symm hne) hu).1 hf
      obtain ⟨_, a2, a3, _⟩ := (W.mapRemote hme hq (Ne.symm hne) hu).2 l hl
      subst hy
      exact ⟨l, hhit q u l hq hu a2 a3⟩)
  have hall : ∀ l, l ∈ D ↔ localN dist me ≤ l ∧ l < (g me).totalN := by
    intro l
    constructor
    · intro hl
      have := h4.ghosts l hl
      rw [R.n_eq] at this
      exact this
    · rintro ⟨a1, a2⟩
      obtain ⟨q, b1, b2, b3, b4⟩ := hgh l a1 a2
      have hb := (V.owns_iff' b3.lt).1 b3
      have hu : idOf (g me) l - first dist q < localN dist q := by unfold localN; omega
      have he : first dist q + (idOf (g me) l - first dist q) = idOf (g me) l := by omega
      have ht := (W.touches_ghost hsym hme b3.lt (Ne.symm b4) hu).2 (by rw [he]; exact b2)
      obtain ⟨msgs, hc, hm⟩ := (h2 q (idOf (g me) l - first dist q) _).2 ⟨b3.lt, hu, rfl, rfl, Ne.symm b4, ht⟩
      refine h5 (q, idOf (g me) l - first dist q, (perm q).oldToNew (idOf (g me) l - first dist q)) l ?_ ?_
      · exact (hsh _).mem_iff.2 (List.mem_flatMap.2 ⟨_, hc, List.mem_map.2 ⟨_, hm, rfl⟩⟩)
      · exact hhit q _ l b3.lt hu a1 (by rw [he]; exact b1)
  refine ⟨calls, s, h1, h3, ?_, ?_, hF⟩
  · intro l a1 a2
    have := h4.toGlobal l ((hall l).2 ⟨a1, a2⟩)
    rw [R.n_eq] at this
    exact this
  · intro k l
    rw [h4.toGhost, hall]

end Verif.Dist
