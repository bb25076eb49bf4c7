import Verif.Dist.ColoredLPCut

/-!
# The exchange of the blocks of moved nodes
-/

namespace Verif.Dist
open Verif Verif.Math

variable {ν : Type} {dist : List Nat} {inp : Nat → Input} {g : Nat → DGraph}

/-- The messages if the nodes to send are selected by their positions. -/
theorem World.mapped_calls (W : World dist inp g) (z : Nat × ν) {fr ub : Nat → Nat} {node : Nat → Nat → Nat}
    (hmap : ∀ p, p < procs dist → ∀ i, fr p ≤ i → i < ub p → node p i < localN dist p) {ex : Nat → Execution} (marked : Nat → Nat → Bool)
    (val : Nat → Nat → ν) (hex : Executions dist fr ub ex) {me : Nat} (hme : me < procs dist) :
    ∃ calls, exchange? (procs dist) z (fun p => sendBuffers? (ex p).threads (procs dist)
        (fun i => toPeMessages? (g p) (fun _ => marked p i) (fun u _ => (u, val p u)) (node p i)) (ex p).count (ex p).fill) me = some calls ∧
      ∀ p u y, (∃ msgs, (p, msgs) ∈ calls ∧ (u, y) ∈ msgs) ↔
        p < procs dist ∧ (∃ i, fr p ≤ i ∧ i < ub p ∧ node p i = u ∧ marked p i = true) ∧ y = val p u ∧ me ≠ p ∧
          touches dist (inp p) u me = true := by
  have key : ∀ p, p < procs dist → ∀ i, fr p ≤ i → i < ub p →
      _ := fun p hp i h1 h2 => W.pe_messages hp (fun _ => marked p i) (fun u _ => (u, val p u)) (hmap p hp i h1 h2)
  let items : Nat → Nat → List (Nat × Nat × ν) := fun p i =>
    (toPeMessages? (g p) (fun _ => marked p i) (fun u _ => (u, val p u)) (node p i)).getD []
  obtain ⟨calls, h1, h2, h3⟩ := exchange_ok W.some_process z (ex := ex) (fr := fr) (ub := ub)
    (fun p i => toPeMessages? (g p) (fun _ => marked p i) (fun u _ => (u, val p u)) (node p i)) items
    (fun p hp i hi1 hi2 => by
      obtain ⟨its, h, _⟩ := key p hp i hi1 hi2
      show _ = some ((toPeMessages? (g p) (fun _ => marked p i) (fun u _ => (u, val p u)) (node p i)).getD [])
      rw [h]; rfl)
    (fun p hp i hi1 hi2 x hx => by
      obtain ⟨its, h, h4, _⟩ := key p hp i hi1 hi2
      change x ∈ (toPeMessages? (g p) (fun _ => marked p i) (fun u _ => (u, val p u)) (node p i)).getD [] at hx
      rw [h] at hx
      exact h4 x hx) hex hme
  have h4 : ∀ p msgs, p < procs dist → (p, msgs) ∈ calls → msgs.Perm
      (((List.range' (fr p) (ub p - fr p)).filter fun i => marked p i && decide (me ≠ p) && touches dist (inp p) (node p i) me).map
        fun i => (node p i, val p (node p i))) := by
    intro p msgs hp hc
    refine (h3 _ hc).trans (List.Perm.of_eq ?_)
    rw [← flatMap_ite]
    unfold msgsTo List.flatMap
    congr 1
    apply List.map_congr_left
    intro i hi
    rw [List.mem_range'_1] at hi
    dsimp only at hi
    obtain ⟨its, h, _, h5⟩ := key p hp i (by omega) (by omega)
    show ((toPeMessages? (g p) (fun _ => marked p i) (fun u _ => (u, val p u)) (node p i)).getD []).filterMap _ = _
    rw [h]
    exact h5 me hme
  refine ⟨calls, h1, fun p u y => ⟨?_, ?_⟩⟩
  · rintro ⟨msgs, hc, hm⟩
    have hp : p < procs dist := List.mem_range.1 (h2.mem_iff.1 (List.mem_map.2 ⟨_, hc, rfl⟩))
    obtain ⟨i, h5, h6⟩ := List.mem_map.1 ((h4 p msgs hp hc).mem_iff.1 hm)
    injection h6 with h6 h7
    subst h6
    rw [List.mem_filter, List.mem_range'_1] at h5
    have h9 := h5.2
    simp only [Bool.and_eq_true, decide_eq_true_iff] at h9
    exact ⟨hp, ⟨i, by omega, by omega, rfl, h9.1.1⟩, h7.symm, h9.1.2, h9.2⟩
  · rintro ⟨hp, ⟨i, hi1, hi2, rfl, hf⟩, rfl, h5, h6⟩
    obtain ⟨⟨p', msgs⟩, hc, hpp⟩ := List.mem_map.1 (h2.mem_iff.2 (List.mem_range.2 hp))
    dsimp only at hpp
    subst hpp
    refine ⟨msgs, hc, (h4 p' msgs hp hc).mem_iff.2 (List.mem_map.2 ⟨i, ?_, rfl⟩)⟩
    rw [List.mem_filter, List.mem_range'_1]
    refine ⟨by omega, ?_⟩
    simp only [Bool.and_eq_true, decide_eq_true_iff]
    exact ⟨⟨hf, h5⟩, h6⟩

/-- The selected nodes `Sel` have the values of their owners afterwards, everything else is left alone. -/
theorem World.mapped_sync (W : World dist inp g) (hsym : Symmetric dist inp) (z : Nat × ν) {fr ub : Nat → Nat} {node : Nat → Nat → Nat}
    (hmap : ∀ p, p < procs dist → ∀ i, fr p ≤ i → i < ub p → node p i < localN dist p) {ex : Nat → Execution} (marked : Nat → Nat → Bool)
    (val : Nat → Nat → ν) (hex : Executions dist fr ub ex) {shuffle : List (Nat × ν) → List (Nat × ν)}
    (hsh : ∀ l, (shuffle l).Perm l) {me : Nat} (hme : me < procs dist) (cap : Nat) (hcap : (g me).totalN ≤ cap) (arr : Nat → ν)
    {Sel : Nat → Nat → Prop} (hSel : ∀ p u, Sel p u ↔ ∃ i, fr p ≤ i ∧ i < ub p ∧ node p i = u ∧ marked p i = true) :
    ∃ arr', ((exchange? (procs dist) z (fun p => sendBuffers? (ex p).threads (procs dist)
        (fun i => toPeMessages? (g p) (fun _ => marked p i) (fun u _ => (u, val p u)) (node p i)) (ex p).count (ex p).fill) me).bind
          fun calls => receive? (g me) cap shuffle calls arr) = some arr' ∧
      ∀ l v q, (g me).localToGlobal? l = some v → Owns dist q v →
        (q ≠ me → Sel q (v - first dist q) → arr' l = val q (v - first dist q)) ∧ (q = me ∨ ¬ Sel q (v - first dist q) → arr' l = arr l) := by
  have R := W.represents me hme
  have V := W.valid me hme
  obtain ⟨calls, h1, h2⟩ := W.mapped_calls z hmap marked val hex hme
  have hlt : ∀ p u, p < procs dist → Sel p u → u < localN dist p := by
    intro p u hp h
    obtain ⟨i, a1, a2, a3, _⟩ := (hSel p u).1 h
    rw [← a3]; exact hmap p hp i a1 a2
  simp only [← hSel] at h2
  let glob : Nat → Nat := fun l => ((g me).localToGlobal? l).getD 0
  let good : Nat → ν := fun l => val ((g me).findOwner (glob l)) (glob l - first dist ((g me).findOwner (glob l)))
  have hgood : ∀ l v q, (g me).localToGlobal? l = some v → Owns dist q v → good l = val q (v - first dist q) := by
    intro l v q hl hq
    have h3 : glob l = v := by
      show ((g me).localToGlobal? l).getD 0 = v
      rw [hl]; rfl
    show val ((g me).findOwner (glob l)) (glob l - first dist ((g me).findOwner (glob l))) = _
    rw [h3]
    have h4 : v < first dist (dist.length - 1) := by
      have h5 := (V.owns_iff' hq.lt).1 hq
      have h6 := hq.lt
      unfold procs at h6
      have := V.mono (i := q + 1) (j := dist.length - 1) (by omega) (by omega)
      omega
    rw [V.owns_unique (R.find_owner v h4) hq]
  obtain ⟨arr', h3, h4⟩ := receive_ok (gr := g me) (cap := cap) good hsh calls arr (by
    intro p msgs m hc hm
    obtain ⟨u, y⟩ := m
    obtain ⟨hp, hu', rfl, hne, ht⟩ := (h2 p u y).1 ⟨msgs, hc, hm⟩
    have hu := hlt p u hp hu'
    have hO : Owns dist p (first dist p + u) := by
      rw [V.owns_iff' hp]; unfold localN at hu; omega
    have hmem : first dist p + u ∈ foreign dist me (inp me) := by
      rw [W.foreign_mem hme]
      refine ⟨?_, fun h => hne (V.owns_unique h hO)⟩
      unfold touches at ht
      rw [List.any_eq_true] at ht
      obtain ⟨x, hx, hx2⟩ := ht
      rw [decide_eq_true_iff] at hx2
      obtain ⟨q, w, hq, hq2, hq3⟩ := hsym (first dist p + u) x.1 ⟨p, x.2, hp, hO, by rw [Nat.add_sub_cancel_left]; exact hx⟩
      have hqe : q = me := V.owns_unique hq2 ((V.owns_iff' hme).2 hx2)
      subst hqe
      exact V.neighbour_mem (by
        have := (V.owns_iff' hme).1 hq2
        unfold localN; omega) hq3
    obtain ⟨l, hl⟩ := (W.mapRemote hme hp (Ne.symm hne) hu).1 hmem
    obtain ⟨h5, _, h6, _⟩ := (W.mapRemote hme hp (Ne.symm hne) hu).2 l hl
    refine ⟨l, hl, by omega, ?_⟩
    rw [hgood l _ p h6 hO, Nat.add_sub_cancel_left])
  refine ⟨arr', by rw [h1, Option.bind_some]; exact h3, ?_⟩
  · intro l v q hl hq
    rcases (W.node hme hl).2 with ⟨_, h5, h6, h7⟩ | ⟨_, h5, h6, q', _, h7, h8⟩
    · have hqe : q = me := V.owns_unique hq h7
      subst hqe
      refine ⟨fun h => absurd rfl h, fun _ => (h4 l).2 ?_⟩
      rintro ⟨p, msgs, ⟨u, y⟩, hc, hm, hr⟩
      obtain ⟨hp, hu', _, hne, _⟩ := (h2 p u y).1 ⟨msgs, hc, hm⟩
      have hu := hlt p u hp hu'
      have := (W.mapRemote hme hp (Ne.symm hne) hu).2 l hr
      omega
    · have hqe : q = q' := V.owns_unique hq h7
      subst hqe
      have hqlt := h7.lt
      have hqb := (V.owns_iff' hqlt).1 h7
      have hveq : first dist q + (v - first dist q) = v := by omega
      have hloc : v - first dist q < localN dist q := by unfold localN; omega
      refine ⟨fun _ hfil => ?_, fun hfil => ?_⟩
      swap
      · have hfil := hfil.resolve_left h8
        refine (h4 l).2 ?_
        rintro ⟨p, msgs, ⟨u, y⟩, hc, hm, hr⟩
        obtain ⟨hp, hu', _, hne, _⟩ := (h2 p u y).1 ⟨msgs, hc, hm⟩
        have hu := hlt p u hp hu'
        obtain ⟨_, _, hg', _⟩ := (W.mapRemote hme hp (Ne.symm hne) hu).2 l hr
        rw [hl] at hg'
        injection hg' with hg'
        have hpq : p = q := V.owns_unique (v := v) (by
          rw [V.owns_iff' hp, hg']; unfold localN at hu; omega) h7
        subst hpq
        rw [show v - first dist p = u by omega] at hfil
        exact hfil hu'
      rw [← hgood l v q hl h7]
      refine (h4 l).1 ?_
      obtain ⟨hadj, _⟩ := (W.foreign_mem hme).1 h6
      obtain ⟨u, w, hu, hn⟩ := V.adjncy_neighbour hadj
      have hO : Owns dist me (first dist me + u) := by
        rw [V.owns_iff' hme]; unfold localN at hu; omega
      obtain ⟨q2, w', hq2, hq3, hq4⟩ := hsym (first dist me + u) v ⟨me, w, hme, hO, by rw [Nat.add_sub_cancel_left]; exact hn⟩
      have hqe : q2 = q := V.owns_unique hq3 h7
      subst hqe
      obtain ⟨msgs, hc, hm⟩ := (h2 q2 (v - first dist q2) (val q2 (v - first dist q2))).2 ⟨hqlt, hfil, rfl, Ne.symm h8, by
        unfold touches
        rw [List.any_eq_true]
        exact ⟨_, hq4, by rw [decide_eq_true_iff]; exact (V.owns_iff' hme).1 hO⟩⟩
      refine ⟨q2, msgs, _, hc, hm, ?_⟩
      obtain ⟨l', hl'⟩ := (W.mapRemote hme hqlt h8 hloc).1 (by rw [hveq]; exact h6)
      obtain ⟨_, _, hg', _⟩ := (W.mapRemote hme hqlt h8 hloc).2 l' hl'
      rw [hveq] at hg'
      have e1 := R.inverse l' v (lt_total hg') hg'
      have e2 := R.inverse l v (lt_total hl) hl
      rw [e1] at e2
      injection e2 with e2
      subst e2
      exact hl'

end Verif.Dist
