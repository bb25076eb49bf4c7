import Verif.Dist.ColoredLPMoves

/-!
# Probabilistic moves
-/

namespace Verif.Dist
open Verif Verif.Math

variable {dist : List Nat} {inp : Nat → Input} {g : Nat → DGraph} {P : Nat → Nat} {Wt : Nat → Int} {cfg : LPConfig}
variable {node : Nat → Nat → Nat} {fr ub : Nat → Nat} {s : Nat → LPLocal} {bal : Prop}

/-- The node at position `i` is moved. -/
def tried (s : LPLocal) (node : Nat → Nat) (flip : Nat → Bool) (i : Nat) : Bool :=
  match s.next i with
  | none => false
  | some b => decide (b ≠ s.part (node i)) && flip i

/-- Its new block. -/
def target (s : LPLocal) (i : Nat) : Nat := (s.next i).getD 0

theorem tried_some {s : LPLocal} {node : Nat → Nat} {flip : Nat → Bool} {i : Nat} (h : tried s node flip i = true) :
    s.next i = some (target s i) ∧ target s i ≠ s.part (node i) ∧ flip i = true := by
  unfold tried at h
  unfold target
  cases hn : s.next i with
  | none => rw [hn] at h; cases h
  | some b =>
    rw [hn] at h
    simp only [Bool.and_eq_true, decide_eq_true_iff] at h
    exact ⟨rfl, h.1, h.2⟩

theorem bump_two {f : Nat → Int} {x y : Nat} {w : Int} (b : Nat) :
    bump (bump f x (-w)) y w b = f b + ((if y = b then w else 0) - (if x = b then w else 0)) := by
  unfold bump upd
  by_cases e1 : b = y <;> by_cases e2 : b = x
  · subst e1
    rw [if_pos rfl, if_pos e2, if_pos rfl, if_pos e2.symm]; rw [← e2]; omega
  · subst e1
    rw [if_pos rfl, if_neg e2, if_pos rfl, if_neg (Ne.symm e2)]; omega
  · subst e2
    rw [if_neg e1, if_pos rfl, if_neg (Ne.symm e1), if_pos rfl]; omega
  · rw [if_neg e1, if_neg e2, if_neg (Ne.symm e1), if_neg (Ne.symm e2)]; omega

/-- The loop over the nodes. -/
theorem try_fold {gr : DGraph} {node : Nat → Nat} {flip : Nat → Bool} {w : Nat → Int} : ∀ (L : List Nat) (s : Attempt), L.Nodup →
    (∀ i j, i ∈ L → j ∈ L → node i = node j → i = j) → (∀ i, i ∈ L → gr.nodeWeight? (node i) = some (w i)) →
    ∃ r, L.foldlM (tryMove? gr node flip) s = some r ∧
      r.moves = s.moves ++ (L.filter (tried s.loc node flip)).map (fun i => (i, s.loc.part (node i))) ∧
      r.gain = s.gain + ((L.filter (tried s.loc node flip)).map s.loc.gains).sum ∧
      (∀ b, r.deltas b = s.deltas b + ((L.filter (tried s.loc node flip)).map fun i =>
        (if target s.loc i = b then w i else 0) - (if s.loc.part (node i) = b then w i else 0)).sum) ∧
      r.loc.weights = s.loc.weights ∧ r.loc.gains = s.loc.gains ∧ r.loc.deltas = s.loc.deltas ∧ r.loc.gained = s.loc.gained ∧
      (∀ i, i ∈ L → tried s.loc node flip i = true → r.loc.part (node i) = target s.loc i ∧ r.loc.next i = none) ∧
      (∀ l, (∀ i, i ∈ L → tried s.loc node flip i = true → node i ≠ l) → r.loc.part l = s.loc.part l) ∧
      (∀ i, ¬ (i ∈ L ∧ tried s.loc node flip i = true) → r.loc.next i = s.loc.next i)
  | [], s, _, _, _ => ⟨s, rfl, by simp, by simp, by simp, rfl, rfl, rfl, rfl, fun _ h => absurd h List.not_mem_nil, fun _ _ => rfl,
      fun _ _ => rfl⟩
  | i :: L, s, hn, hinj, hw => by
    obtain ⟨hn1, hn2⟩ := List.nodup_cons.1 hn
    have hm : ∀ j, j ∈ L → j ∈ i :: L := fun j hj => List.mem_cons_of_mem _ hj
    by_cases ht : tried s.loc node flip i = true
    · obtain ⟨h1, h2, h3⟩ := tried_some ht
      let s1 : Attempt :=
        { loc := { s.loc with part := upd s.loc.part (node i) (target s.loc i), next := upd s.loc.next i none }
          deltas := bump (bump s.deltas (s.loc.part (node i)) (-(w i))) (target s.loc i) (w i)
          moves := s.moves ++ [(i, s.loc.part (node i))]
          gain := s.gain + s.loc.gains i }
      have hstep : tryMove? gr node flip s i = some s1 := by
        unfold tryMove?
        rw [h1]
        dsimp only
        rw [if_neg h2, if_pos h3, hw i List.mem_cons_self]
        rfl
      have hj : ∀ j, j ∈ L → s1.loc.next j = s.loc.next j ∧ s1.loc.part (node j) = s.loc.part (node j) := by
        intro j hj
        have hne : j ≠ i := fun e => hn1 (e ▸ hj)
        refine ⟨upd_ne _ _ hne, upd_ne _ _ fun e => hne (hinj j i (hm j hj) List.mem_cons_self e)⟩
      have htr : ∀ j, j ∈ L → tried s1.loc node flip j = tried s.loc node flip j := by
        intro j h
        unfold tried
        rw [(hj j h).1, (hj j h).2]
      have htg : ∀ j, j ∈ L → target s1.loc j = target s.loc j := by
        intro j h
        unfold target
        rw [(hj j h).1]
      have hfil : L.filter (tried s1.loc node flip) = L.filter (tried s.loc node flip) := List.filter_congr htr
      obtain ⟨r, a1, a2, a3, a4, a5, a6, a7, a8, a9, a10, a11⟩ := try_fold L s1 hn2 (fun x y hx hy => hinj x y (hm x hx) (hm y hy))
        fun x hx => hw x (hm x hx)
      rw [hfil] at a2 a3 a4
      refine ⟨r, ?_, ?_, ?_, fun b => ?_, a5, a6, a7, a8, fun j hj' htj => ?_, fun l hl => ?_, fun j hj' => ?_⟩
      · rw [List.foldlM_cons, hstep]; exact a1
      · rw [a2, List.filter_cons, if_pos ht, List.map_cons]
        show s.moves ++ [(i, s.loc.part (node i))] ++ _ = _
        rw [List.append_assoc, List.singleton_append]
        congr 2
        exact List.map_congr_left fun j h => by rw [(hj j (List.mem_of_mem_filter h)).2]
      · rw [a3, List.filter_cons, if_pos ht, List.map_cons, List.sum_cons]
        show s.gain + s.loc.gains i + ((L.filter (tried s.loc node flip)).map s.loc.gains).sum = _
        omega
      · rw [a4, List.filter_cons, if_pos ht, List.map_cons, List.sum_cons]
        show bump (bump s.deltas (s.loc.part (node i)) (-(w i))) (target s.loc i) (w i) b + _ = _
        rw [bump_two]
        have : (L.filter (tried s.loc node flip)).map (fun i => (if target s1.loc i = b then w i else 0) -
            (if s1.loc.part (node i) = b then w i else 0)) = (L.filter (tried s.loc node flip)).map (fun i =>
            (if target s.loc i = b then w i else 0) - (if s.loc.part (node i) = b then w i else 0)) :=
          List.map_congr_left fun j h => by
            rw [(hj j (List.mem_of_mem_filter h)).2, htg j (List.mem_of_mem_filter h)]
        rw [this]
        omega
      · rcases List.mem_cons.1 hj' with rfl | hj'
        · constructor
          · rw [a10 (node j) fun x hx _ e => hn1 ((hinj x j (hm x hx) List.mem_cons_self e) ▸ hx)]
            exact upd_same ..
          · rw [a11 j fun h => hn1 h.1]
            exact upd_same ..
        · rw [← htg j hj']
          exact a9 j hj' ((htr j hj').trans htj)
      · rw [a10 l fun x hx htx => hl x (hm x hx) ((htr x hx).symm.trans htx)]
        exact upd_ne _ _ (Ne.symm (hl i List.mem_cons_self ht))
      · rw [a11 j fun h => hj' ⟨hm j h.1, (htr j h.1).symm.trans h.2⟩]
        refine upd_ne _ _ fun e => ?_
        subst e
        exact hj' ⟨List.mem_cons_self, ht⟩
    · have hstep : tryMove? gr node flip s i = some s := by
        unfold tryMove?
        unfold tried at ht
        cases hx : s.loc.next i with
        | none => rfl
        | some b =>
          rw [hx] at ht
          dsimp only at ht ⊢
          by_cases hb : b = s.loc.part (node i)
          · rw [if_pos hb]
          · rw [if_neg hb, if_neg]
            intro hf
            apply ht
            simp only [Bool.and_eq_true, decide_eq_true_iff]
            exact ⟨hb, hf⟩
      obtain ⟨r, a1, a2, a3, a4, a5, a6, a7, a8, a9, a10, a11⟩ := try_fold (flip := flip) L s hn2 (fun x y hx hy => hinj x y (hm x hx) (hm y hy))
        fun x hx => hw x (hm x hx)
      have hfil : (i :: L).filter (tried s.loc node flip) = L.filter (tried s.loc node flip) := by
        rw [List.filter_cons, if_neg ht]
      rw [hfil]
      refine ⟨r, ?_, a2, a3, a4, a5, a6, a7, a8, fun j hj' htj => ?_, fun l hl => ?_, fun j hj' => ?_⟩
      · rw [List.foldlM_cons, hstep]; exact a1
      · rcases List.mem_cons.1 hj' with rfl | hj'
        · exact absurd htj ht
        · exact a9 j hj' htj
      · exact a10 l fun x hx => hl x (hm x hx)
      · exact a11 j fun h => hj' ⟨hm j h.1, h.2⟩

theorem rollback_fold {node : Nat → Nat} : ∀ (ms : List (Nat × Nat)) (s : LPLocal), (ms.map (·.1)).Nodup →
    (∀ m m', m ∈ ms → m' ∈ ms → node m.1 = node m'.1 → m.1 = m'.1) →
    (rollback node s ms).weights = s.weights ∧ (rollback node s ms).gains = s.gains ∧ (rollback node s ms).deltas = s.deltas ∧
    (rollback node s ms).gained = s.gained ∧
    (∀ m, m ∈ ms → (rollback node s ms).part (node m.1) = m.2 ∧ (rollback node s ms).next m.1 = some (s.part (node m.1))) ∧
    (∀ l, (∀ m, m ∈ ms → node m.1 ≠ l) → (rollback node s ms).part l = s.part l) ∧
    (∀ i, i ∉ ms.map (·.1) → (rollback node s ms).next i = s.next i)
  | [], s, _, _ => ⟨rfl, rfl, rfl, rfl, fun _ h => absurd h List.not_mem_nil, fun _ _ => rfl, fun _ _ => rfl⟩
  | m :: ms, s, hn, hinj => by
    rw [List.map_cons, List.nodup_cons] at hn
    have hm : ∀ j, j ∈ ms → j ∈ m :: ms := fun j hj => List.mem_cons_of_mem _ hj
    have hne : ∀ j, j ∈ ms → j.1 ≠ m.1 := fun j hj e => hn.1 (e ▸ List.mem_map.2 ⟨j, hj, rfl⟩)
    have hne' : ∀ j, j ∈ ms → node j.1 ≠ node m.1 := fun j hj e => hne j hj (hinj j m (hm j hj) List.mem_cons_self e)
    obtain ⟨a1, a2, a3, a4, a5, a6, a7⟩ := rollback_fold (node := node) ms
      { s with next := upd s.next m.1 (some (s.part (node m.1))), part := upd s.part (node m.1) m.2 } hn.2
      fun x y hx hy => hinj x y (hm x hx) (hm y hy)
    refine ⟨a1, a2, a3, a4, fun j hj => ?_, fun l hl => ?_, fun i hi => ?_⟩
    · rcases List.mem_cons.1 hj with rfl | hj
      · constructor
        · refine (a6 (node j.1) fun x hx => hne' x hx).trans ?_
          exact upd_same ..
        · refine (a7 j.1 hn.1).trans ?_
          exact upd_same ..
      · refine ⟨(a5 j hj).1, (a5 j hj).2.trans ?_⟩
        show some (upd s.part (node m.1) m.2 (node j.1)) = _
        rw [upd_ne _ _ (hne' j hj)]
    · refine (a6 l fun x hx => hl x (hm x hx)).trans ?_
      exact upd_ne _ _ (Ne.symm (hl m List.mem_cons_self))
    · rw [List.map_cons, List.mem_cons, not_or] at hi
      refine (a7 i hi.2).trans ?_
      exact upd_ne _ _ hi.1

theorem unmark_fold {node : Nat → Nat} : ∀ (ms : List (Nat × Nat)) (s : LPLocal),
    (unmark node s ms).weights = s.weights ∧ (unmark node s ms).gains = s.gains ∧ (unmark node s ms).part = s.part ∧
    (unmark node s ms).gained = s.gained ∧
    (∀ m, m ∈ ms → (unmark node s ms).next m.1 = some (s.part (node m.1))) ∧
    (∀ i, i ∉ ms.map (·.1) → (unmark node s ms).next i = s.next i)
  | [], s => ⟨rfl, rfl, rfl, rfl, fun _ h => absurd h List.not_mem_nil, fun _ _ => rfl⟩
  | m :: ms, s => by
    obtain ⟨a1, a2, a3, a4, a5, a6⟩ := unmark_fold (node := node) ms { s with next := upd s.next m.1 (some (s.part (node m.1))) }
    refine ⟨a1, a2, a3, a4, fun j hj => ?_, fun i hi => ?_⟩
    · by_cases hjm : j ∈ ms
      · exact a5 j hjm
      · rcases List.mem_cons.1 hj with rfl | hj
        · by_cases h : j.1 ∈ ms.map (·.1)
          · obtain ⟨x, hx, hxj⟩ := List.mem_map.1 h
            have := a5 x hx
            rw [hxj] at this
            exact this
          · refine (a6 j.1 h).trans ?_
            exact upd_same ..
        · exact absurd hj hjm
    · rw [List.map_cons, List.mem_cons, not_or] at hi
      refine (a6 i hi.2).trans ?_
      exact upd_ne _ _ hi.1

/-- The threads execute the exchange, and received messages are handled in some order. -/
structure SyncSchedule.Ok (dist : List Nat) (fr ub : Nat → Nat) (sch : SyncSchedule) : Prop where
  exec : Executions dist fr ub sch.exec
  shuffle : ∀ p l, (sch.shuffle p l).Perm l

/-- After the exchange, each process has the blocks of `P'` if the owners have them, and the marked nodes are those that changed. -/
theorem World.lp_sync (W : World dist inp g) (hsym : Symmetric dist inp)
    (hlt : ∀ p, p < procs dist → ∀ i, fr p ≤ i → i < ub p → node p i < localN dist p) {sch : SyncSchedule} (hsch : sch.Ok dist fr ub) {P P' : Nat → Nat}
    (hown : ∀ p, p < procs dist → ∀ u, u < localN dist p → (s p).part u = P' (first dist p + u))
    (hghost : ∀ p, p < procs dist → ∀ l v, (g p).localToGlobal? l = some v → localN dist p ≤ l → (s p).part l = P v)
    (hmark : ∀ p, p < procs dist → ∀ u, u < localN dist p → (∀ i, fr p ≤ i → i < ub p → node p i = u → (s p).next i ≠ none) →
      P' (first dist p + u) = P (first dist p + u)) {me : Nat} (hme : me < procs dist) :
    ∃ part, lpSync? (procs dist) g node sch s me = some part ∧ ∀ l v, (g me).localToGlobal? l = some v → part l = P' v := by
  obtain ⟨arr, h1, h2⟩ := W.mapped_sync hsym (0, 0) hlt (fun p i => ((s p).next i).isNone) (fun p u => (s p).part u) hsch.exec
    (hsch.shuffle me) hme (g me).totalN (Nat.le_refl _) (s me).part
    (Sel := fun p u => ∃ i, fr p ≤ i ∧ i < ub p ∧ node p i = u ∧ ((s p).next i).isNone = true) (fun _ _ => Iff.rfl)
  refine ⟨arr, h1, fun l v hl => ?_⟩
  rcases (W.node hme hl).2 with ⟨_, h5, h6, h7⟩ | ⟨_, h5, h6, q, _, h7, h8⟩
  · rw [(h2 l v me hl h7).2 (Or.inl rfl), hown me hme l h5, h6]
  · have hq := h7.lt
    have hb := ((W.valid me hme).owns_iff' hq).1 h7
    have hloc : v - first dist q < localN dist q := by unfold localN; omega
    have hv : first dist q + (v - first dist q) = v := by omega
    by_cases hsel : ∃ i, fr q ≤ i ∧ i < ub q ∧ node q i = v - first dist q ∧ ((s q).next i).isNone = true
    · rw [(h2 l v q hl h7).1 h8 hsel, hown q hq _ hloc, hv]
    · rw [(h2 l v q hl h7).2 (Or.inr hsel), hghost me hme l v hl h5]
      have := hmark q hq _ hloc fun i a1 a2 a3 a4 => hsel ⟨i, a1, a2, a3, by rw [a4]; rfl⟩
      rw [hv] at this
      exact this.symm

theorem World.try_moves (W : World dist inp g) (hsym : Symmetric dist inp) (hu : Undirected dist inp) (hl : LoopFree dist inp)
    (hW : HasWeights dist inp Wt) {fr ub : Nat → Nat → Nat} {c : Nat}
    (K : ColorClass dist inp node (fun p => fr p c) (fun p => ub p c)) (flip : Nat → Nat → Bool) {sch : SyncSchedule}
    (hsch : sch.Ok dist (fun p => fr p c) (fun p => ub p c))
    (M : Mid dist inp g Wt cfg.k node (fun p => fr p c) (fun p => ub p c) P s) :
    ∃ ok s' P', tryMoves? (procs dist) cfg g node fr ub c flip sch s = some (ok, s') ∧
      Mid dist inp g Wt cfg.k node (fun p => fr p c) (fun p => ub p c) P' s' ∧ Improves dist inp Wt cfg bal P s P' s' ∧
      Frame dist node (fun p => fr p c) (fun p => ub p c) P s P' s' := by
  have hrange : ∀ p i, i ∈ List.range' (fr p c) (ub p c - fr p c) ↔ fr p c ≤ i ∧ i < ub p c := by
    intro p i; rw [List.mem_range'_1]; omega
  have hown : ∀ p, p < procs dist → ∀ u, u < localN dist p → (s p).part u = P (first dist p + u) := fun p hp u hu =>
    (M.agree p hp).1 _ _ ((W.represents p hp).own u hu)
  have hwt : ∀ p, p < procs dist → ∀ b, b < cfg.k → (s p).weights b = blockWeight dist Wt P b := fun p hp => (M.agree p hp).2
  -- the moved positions of a process
  let mv : Nat → List Nat := fun p => (List.range' (fr p c) (ub p c - fr p c)).filter (tried (s p) (node p) (flip p))
  have hmv : ∀ p i, i ∈ mv p ↔ (fr p c ≤ i ∧ i < ub p c) ∧ tried (s p) (node p) (flip p) i = true := by
    intro p i
    show i ∈ List.filter _ _ ↔ _
    rw [List.mem_filter, hrange]
  have hmvn : ∀ p, (mv p).Nodup := fun p => List.Nodup.filter _ List.nodup_range'
  obtain ⟨at_, h1, h2⟩ := forAll_ok (⟨LPLocal.zero, fun _ => 0, [], 0⟩ : Attempt) (N := procs dist)
    (f := fun p => (List.range' (fr p c) (ub p c - fr p c)).foldlM (tryMove? (g p) (node p) (flip p)) ⟨s p, fun _ => 0, [], 0⟩)
    (Q := fun p r => r.moves = (mv p).map (fun i => (i, (s p).part (node p i))) ∧ r.gain = ((mv p).map (s p).gains).sum ∧
      (∀ b, r.deltas b = ((mv p).map fun i => (if target (s p) i = b then Wt (first dist p + node p i) else 0) -
        (if (s p).part (node p i) = b then Wt (first dist p + node p i) else 0)).sum) ∧
      r.loc.weights = (s p).weights ∧ r.loc.gains = (s p).gains ∧ r.loc.deltas = (s p).deltas ∧ r.loc.gained = (s p).gained ∧
      (∀ i, i ∈ mv p → r.loc.part (node p i) = target (s p) i ∧ r.loc.next i = none) ∧
      (∀ l, (∀ i, i ∈ mv p → node p i ≠ l) → r.loc.part l = (s p).part l) ∧
      (∀ i, i ∉ mv p → r.loc.next i = (s p).next i)) (by
      intro p hp
      obtain ⟨r, a1, a2, a3, a4, a5, a6, a7, a8, a9, a10, a11⟩ := try_fold (gr := g p) (node := node p) (flip := flip p)
        (w := fun i => Wt (first dist p + node p i)) (List.range' (fr p c) (ub p c - fr p c)) ⟨s p, fun _ => 0, [], 0⟩
        List.nodup_range'
        (fun i j hi hj => by
          rw [hrange] at hi hj
          exact K.inj p hp i j hi.1 hi.2 hj.1 hj.2)
        (fun i hi => by
          rw [hrange] at hi
          have := K.lt p hp i hi.1 hi.2
          rw [(W.represents p hp).node_weight _ this, hW p hp _ this])
      refine ⟨r, a1, ?_, ?_, fun b => ?_, a5, a6, a7, a8, fun i hi => ?_, fun l hl => ?_, fun i hi => ?_⟩
      · rw [a2]; exact List.nil_append _
      · rw [a3]; exact Int.zero_add _
      · rw [a4 b]; exact Int.zero_add _
      · have := (hmv p i).1 hi
        exact a9 i ((hrange p i).2 this.1) this.2
      · exact a10 l fun i hi ht => hl i ((hmv p i).2 ⟨(hrange p i).1 hi, ht⟩)
      · exact a11 i fun h => hi ((hmv p i).2 ⟨(hrange p i).1 h.1, h.2⟩))
  -- all moves
  let r : List (Nat × Nat) := (List.range (procs dist)).flatMap fun p => (mv p).map fun i => (first dist p + node p i, target (s p) i)
  have hrmem : ∀ m, m ∈ r ↔ ∃ p i, p < procs dist ∧ i ∈ mv p ∧ m = (first dist p + node p i, target (s p) i) := by
    intro m
    show m ∈ List.flatMap _ _ ↔ _
    rw [List.mem_flatMap]
    constructor
    · rintro ⟨p, hp, h⟩
      obtain ⟨i, hi, rfl⟩ := List.mem_map.1 h
      exact ⟨p, i, List.mem_range.1 hp, hi, rfl⟩
    · rintro ⟨p, i, hp, hi, rfl⟩
      exact ⟨p, List.mem_range.2 hp, List.mem_map.2 ⟨i, hi, rfl⟩⟩
  have hr : FromClass dist node (fun p => fr p c) (fun p => ub p c) r := by
    intro m hm
    obtain ⟨p, i, hp, hi, rfl⟩ := (hrmem m).1 hm
    have := ((hmv p i).1 hi).1
    exact ⟨p, i, hp, this.1, this.2, rfl⟩
  have hgood : ∀ p i, p < procs dist → i ∈ mv p → (s p).next i = some (target (s p) i) ∧
      Good dist inp P cfg.k (first dist p + node p i) (some (target (s p) i)) ((s p).gains i) := by
    intro p i hp hi
    obtain ⟨h3, h4⟩ := (hmv p i).1 hi
    obtain ⟨h5, h6, _⟩ := tried_some h4
    rw [hown p hp _ (K.lt p hp i h3.1 h3.2)] at h6
    refine ⟨h5, ?_⟩
    rcases M.next p hp i h3.1 h3.2 with h | h | h
    · rw [h5] at h; cases h
    · rw [h5] at h
      injection h with h
      exact absurd h h6
    · rw [h5] at h; exact h
  have hn : (r.map (·.1)).Nodup := by
    show (List.map _ (List.flatMap _ _)).Nodup
    rw [List.map_flatMap, List.nodup_flatMap]
    constructor
    · intro p hp
      have hp := List.mem_range.1 hp
      rw [List.map_map]
      refine nodup_map_on (hmvn p) fun i hi j hj h => ?_
      have h3 := ((hmv p i).1 hi).1
      have h4 := ((hmv p j).1 hj).1
      exact (K.same W hp hp h3.1 h3.2 h4.1 h4.2 h).2
    · refine List.Pairwise.imp_of_mem (R := fun p q => p ≠ q) ?_ (List.nodup_range)
      intro p q hp hq hne x hx hy
      have hp := List.mem_range.1 hp
      have hq := List.mem_range.1 hq
      dsimp only at hx hy
      rw [List.map_map] at hx hy
      obtain ⟨i, hi, h3⟩ := List.mem_map.1 hx
      obtain ⟨j, hj, h4⟩ := List.mem_map.1 hy
      have h5 := ((hmv p i).1 hi).1
      have h6 := ((hmv q j).1 hj).1
      exact hne (K.same W hp hq h5.1 h5.2 h6.1 h6.2 (h3.trans h4.symm)).1
  generalize hP' : applyMoves P r = P'
  have hmoved : ∀ p i, p < procs dist → i ∈ mv p → P' (first dist p + node p i) = target (s p) i := by
    intro p i hp hi
    rw [← hP']
    exact applyMoves_moved r P hn ((hrmem _).2 ⟨p, i, hp, hi, rfl⟩)
  have hsame : ∀ p u, p < procs dist → u < localN dist p → (∀ i, i ∈ mv p → node p i ≠ u) →
      P' (first dist p + u) = P (first dist p + u) := by
    intro p u hp hu' h
    rw [← hP']
    refine applyMoves_other r P fun hm => ?_
    obtain ⟨m, hm, h3⟩ := List.mem_map.1 hm
    obtain ⟨q, i, hq, hi, rfl⟩ := (hrmem m).1 hm
    have h4 := ((hmv q i).1 hi).1
    have h5 := K.lt q hq i h4.1 h4.2
    have e : q = p := by
      rw [← (W.own_at hq h5).1, show first dist q + node q i = first dist p + u from h3]
      exact (W.own_at hp hu').1
    subst e
    exact h i hi (by have : first dist q + node q i = first dist q + u := h3; omega)
  -- the changes of the block weights
  let total : Nat → Int := fun b => ((List.range (procs dist)).map fun p => (at_ p).deltas b).sum
  have htotal : ∀ b, blockWeight dist Wt P' b = blockWeight dist Wt P b + total b := by
    intro b
    rw [← hP', weight_moves Wt r P hn (fun m hm => by
      obtain ⟨p, i, hp, hi, rfl⟩ := (hrmem m).1 hm
      have := ((hmv p i).1 hi).1
      exact (W.own_at hp (K.lt p hp i this.1 this.2)).2) b]
    congr 1
    show (List.map _ (List.flatMap _ _)).sum = _
    rw [sum_flatMap_map]
    congr 1
    apply List.map_congr_left
    intro p hp
    have hp := List.mem_range.1 hp
    rw [(h2 p hp).2.2.1 b, List.map_map]
    congr 1
    apply List.map_congr_left
    intro i hi
    have := ((hmv p i).1 hi).1
    show (if target (s p) i = b then _ else _) - (if P (first dist p + node p i) = b then _ else _) = _
    rw [hown p hp _ (K.lt p hp i this.1 this.2)]
  have hok : ∀ p, p < procs dist → (staysFeasible cfg (at_ p).loc.weights total = true ↔
      ∀ b, b < cfg.k → ¬ (total b > 0 ∧ blockWeight dist Wt P b + total b > cfg.limit b)) := by
    intro p hp
    unfold staysFeasible
    rw [List.all_eq_true, (h2 p hp).2.2.2.1]
    constructor
    · intro h b hb h3
      have := h b (List.mem_range.2 hb)
      rw [hwt p hp b hb, decide_eq_true h3.1, decide_eq_true h3.2] at this
      cases this
    · intro h b hb
      have h3 := h b (List.mem_range.1 hb)
      rw [hwt p hp b (List.mem_range.1 hb)]
      rw [Bool.not_eq_true', Bool.and_eq_false_iff]
      by_cases h4 : total b > 0
      · right; rw [decide_eq_false_iff_not]; exact fun h5 => h3 ⟨h4, h5⟩
      · left; rw [decide_eq_false_iff_not]; exact h4
  unfold tryMoves?
  rw [h1, Option.bind_some]
  by_cases hfeas : ∀ b, b < cfg.k → ¬ (total b > 0 ∧ blockWeight dist Wt P b + total b > cfg.limit b)
  · obtain ⟨s', h3, h4⟩ := forAll_ok LPLocal.zero (N := procs dist) (f := commit? (procs dist) g node sch at_ total)
      (Q := fun p s' => (∀ l v, (g p).localToGlobal? l = some v → s'.part l = P' v) ∧ s'.weights = (fun b => (s p).weights b + total b) ∧
        s'.gained = (s p).gained + ((mv p).map (s p).gains).sum ∧ s'.gains = (s p).gains ∧
        (∀ i, i ∈ mv p → s'.next i = some (P' (first dist p + node p i))) ∧ ∀ i, i ∉ mv p → s'.next i = (s p).next i) (by
        intro p hp
        obtain ⟨part, h5, h6⟩ := W.lp_sync hsym K.lt hsch (s := fun q => (at_ q).loc) (P := P) (P' := P')
          (fun q hq u hu' => by
            by_cases h : ∃ i, i ∈ mv q ∧ node q i = u
            · obtain ⟨i, hi, rfl⟩ := h
              rw [((h2 q hq).2.2.2.2.2.2.2.1 i hi).1, hmoved q i hq hi]
            · have h' : ∀ i, i ∈ mv q → node q i ≠ u := fun i hi e => h ⟨i, hi, e⟩
              rw [(h2 q hq).2.2.2.2.2.2.2.2.1 u h', hown q hq u hu', hsame q u hq hu' h'])
          (fun q hq l v hlv hge => by
            rw [(h2 q hq).2.2.2.2.2.2.2.2.1 l fun i hi e => by
              have h3 := ((hmv q i).1 hi).1
              have := K.lt q hq i h3.1 h3.2
              omega]
            exact (M.agree q hq).1 l v hlv)
          (fun q hq u hu' hno => hsame q u hq hu' fun i hi e => by
            have h3 := ((hmv q i).1 hi).1
            exact hno i h3.1 h3.2 e ((h2 q hq).2.2.2.2.2.2.2.1 i hi).2)
          hp
        unfold commit?
        rw [h5, Option.map_some]
        obtain ⟨b1, b2, b3, b4, b5, b6⟩ := unmark_fold (node := node p) (at_ p).moves { (at_ p).loc with
          part := part
          weights := fun b => (at_ p).loc.weights b + total b
          gained := (at_ p).loc.gained + (at_ p).gain }
        refine ⟨_, rfl, ?_, ?_, ?_, ?_, fun i hi => ?_, fun i hi => ?_⟩
        · rw [b3]; exact h6
        · rw [b1]
          show (fun b => (at_ p).loc.weights b + total b) = _
          rw [(h2 p hp).2.2.2.1]
        · rw [b4]
          show (at_ p).loc.gained + (at_ p).gain = _
          rw [(h2 p hp).2.2.2.2.2.2.1, (h2 p hp).2.1]
        · rw [b2]; exact (h2 p hp).2.2.2.2.1
        · have := b5 (i, (s p).part (node p i)) (by rw [(h2 p hp).1]; exact List.mem_map.2 ⟨i, hi, rfl⟩)
          rw [this]
          show some (part (node p i)) = _
          have h3 := ((hmv p i).1 hi).1
          rw [h6 _ _ ((W.represents p hp).own _ (K.lt p hp i h3.1 h3.2))]
        · rw [b6 i (by
            rw [(h2 p hp).1, List.map_map]
            intro h
            obtain ⟨j, hj, hji⟩ := List.mem_map.1 h
            have e : j = i := hji
            exact hi (e ▸ hj))]
          exact (h2 p hp).2.2.2.2.2.2.2.2.2 i hi)
    refine ⟨true, s', P', ?_, ?_, ?_, ?_⟩
    · dsimp only
      rw [if_pos]
      · rw [h3]; rfl
      · rw [List.all_eq_true]
        intro p hp
        exact (hok p (List.mem_range.1 hp)).2 hfeas
    · refine ⟨fun p hp => ⟨(h4 p hp).1, fun b hb => ?_⟩, ?_, fun p hp i hi1 hi2 => ?_⟩
      · dsimp only
        rw [(h4 p hp).2.1, htotal b]
        dsimp only
        rw [hwt p hp b hb]
      · rw [← hP']
        refine applyMoves_lt r P M.blocks fun m hm => ?_
        obtain ⟨p, i, hp, hi, rfl⟩ := (hrmem m).1 hm
        obtain ⟨b, hb1, hb2, _⟩ := (hgood p i hp hi).2
        injection hb1 with hb1
        show target (s p) i < cfg.k
        rw [hb1]; exact hb2
      · by_cases hi : i ∈ mv p
        · right; left; exact (h4 p hp).2.2.2.2.1 i hi
        · have hsm : P' (first dist p + node p i) = P (first dist p + node p i) := by
            refine hsame p _ hp (K.lt p hp i hi1 hi2) fun j hj e => ?_
            have h3 := ((hmv p j).1 hj).1
            exact hi ((K.inj p hp j i h3.1 h3.2 hi1 hi2 e) ▸ hj)
          rw [(h4 p hp).2.2.2.2.2 i hi, (h4 p hp).2.2.2.1, hsm]
          rcases M.next p hp i hi1 hi2 with h | h | h
          · left; exact h
          · right; left; exact h
          · right; right
            rw [← hP']
            exact K.good_moves hr hp hi1 hi2 (by rw [hP']; exact hsm) h
    · have hcut := K.cut_eq (P := P) hu hl hr hn
      rw [hP'] at hcut
      have hgain : (r.map fun m => conn dist inp P m.1 m.2 - conn dist inp P m.1 (P m.1)).sum = totalGain dist s' - totalGain dist s := by
        unfold totalGain
        rw [← sum_map_sub]
        show (List.map _ (List.flatMap _ _)).sum = _
        rw [sum_flatMap_map]
        congr 1
        apply List.map_congr_left
        intro p hp
        have hp := List.mem_range.1 hp
        rw [(h4 p hp).2.2.1, List.map_map]
        have : (mv p).map (s p).gains = (mv p).map ((fun m : Nat × Nat => conn dist inp P m.1 m.2 - conn dist inp P m.1 (P m.1)) ∘
            fun i => (first dist p + node p i, target (s p) i)) := by
          apply List.map_congr_left
          intro i hi
          obtain ⟨b, hb1, _, hb3, _⟩ := (hgood p i hp hi).2
          injection hb1 with hb1
          show _ = conn dist inp P (first dist p + node p i) (target (s p) i) - _
          rw [hb1]; exact hb3
        rw [this]
        omega
      have hge : 0 ≤ (r.map fun m => conn dist inp P m.1 m.2 - conn dist inp P m.1 (P m.1)).sum := by
        apply sum_nonneg
        intro x hx
        obtain ⟨m, hm, rfl⟩ := List.mem_map.1 hx
        obtain ⟨p, i, hp, hi, rfl⟩ := (hrmem m).1 hm
        obtain ⟨b, hb1, _, hb3, hb4⟩ := (hgood p i hp hi).2
        injection hb1 with hb1
        show 0 ≤ conn dist inp P (first dist p + node p i) (target (s p) i) - _
        rw [hb1, ← hb3]; exact hb4
      refine ⟨by omega, by omega, fun _ b hb => ?_⟩
      have h5 := hfeas b hb
      rw [htotal b]
      by_cases h6 : total b > 0
      · have : ¬ blockWeight dist Wt P b + total b > cfg.limit b := fun h => h5 ⟨h6, h⟩
        omega
      · omega
    · refine ⟨fun a ha => ?_, fun p hp i hi => ?_⟩
      · rw [← hP']; exact K.frame hr ha
      · exact (h4 p hp).2.2.2.2.2 i fun h => hi ((hmv p i).1 h).1
  · have hback : ∀ p, p < procs dist → rollback (node p) (at_ p).loc (at_ p).moves = s p := by
      intro p hp
      have hms : ((at_ p).moves.map (·.1)) = mv p := by
        rw [(h2 p hp).1, List.map_map]
        exact List.map_id _
      have hmm : ∀ m, m ∈ (at_ p).moves ↔ ∃ i, i ∈ mv p ∧ m = (i, (s p).part (node p i)) := by
        intro m
        rw [(h2 p hp).1, List.mem_map]
        exact ⟨fun ⟨i, h, e⟩ => ⟨i, h, e.symm⟩, fun ⟨i, h, e⟩ => ⟨i, h, e.symm⟩⟩
      obtain ⟨b1, b2, b3, b4, b5, b6, b7⟩ := rollback_fold (node := node p) (at_ p).moves (at_ p).loc (by rw [hms]; exact hmvn p) (by
        intro m m' hm hm' e
        obtain ⟨i, hi, rfl⟩ := (hmm m).1 hm
        obtain ⟨j, hj, rfl⟩ := (hmm m').1 hm'
        have h3 := ((hmv p i).1 hi).1
        have h4 := ((hmv p j).1 hj).1
        exact K.inj p hp i j h3.1 h3.2 h4.1 h4.2 e)
      have e1 : (rollback (node p) (at_ p).loc (at_ p).moves).part = (s p).part := by
        funext l
        by_cases h : ∃ i, i ∈ mv p ∧ node p i = l
        · obtain ⟨i, hi, rfl⟩ := h
          exact (b5 (i, (s p).part (node p i)) ((hmm _).2 ⟨i, hi, rfl⟩)).1
        · have h' : ∀ i, i ∈ mv p → node p i ≠ l := fun i hi e => h ⟨i, hi, e⟩
          rw [b6 l fun m hm => by
            obtain ⟨i, hi, rfl⟩ := (hmm m).1 hm
            exact h' i hi]
          exact (h2 p hp).2.2.2.2.2.2.2.2.1 l h'
      have e2 : (rollback (node p) (at_ p).loc (at_ p).moves).next = (s p).next := by
        funext i
        by_cases hi : i ∈ mv p
        · have := (b5 (i, (s p).part (node p i)) ((hmm _).2 ⟨i, hi, rfl⟩)).2
          rw [show (rollback (node p) (at_ p).loc (at_ p).moves).next i = some ((at_ p).loc.part (node p i)) from this,
            ((h2 p hp).2.2.2.2.2.2.2.1 i hi).1]
          exact (hgood p i hp hi).1.symm
        · rw [b7 i (by rw [hms]; exact hi)]
          exact (h2 p hp).2.2.2.2.2.2.2.2.2 i hi
      have e3 := b1.trans (h2 p hp).2.2.2.1
      have e4 := b2.trans (h2 p hp).2.2.2.2.1
      have e5 := b3.trans (h2 p hp).2.2.2.2.2.1
      have e6 := b4.trans (h2 p hp).2.2.2.2.2.2.1
      generalize rollback (node p) (at_ p).loc (at_ p).moves = x at e1 e2 e3 e4 e5 e6
      cases x
      cases hsp : s p
      rw [hsp] at e1 e2 e3 e4 e5 e6
      simp only at e1 e2 e3 e4 e5 e6
      subst e1 e2 e3 e4 e5 e6
      rfl
    refine ⟨false, fun p => rollback (node p) (at_ p).loc (at_ p).moves, P, ?_, ?_, ?_, ?_⟩
    · dsimp only
      rw [if_neg, if_pos]
      · rw [List.all_eq_true]
        intro p hp
        rw [Bool.not_eq_true', ← Bool.not_eq_true]
        exact fun h => hfeas ((hok p (List.mem_range.1 hp)).1 h)
      · rw [List.all_eq_true]
        intro h
        exact hfeas ((hok 0 W.some_process).1 (h 0 (List.mem_range.2 W.some_process)))
    · refine ⟨fun p hp => ?_, M.blocks, fun p hp => ?_⟩
      · have := M.agree p hp
        dsimp only at this ⊢
        rw [hback p hp]
        exact this
      · rw [hback p hp]
        exact M.next p hp
    · exact Improves.refl fun p hp => by rw [hback p hp]
    · exact Frame.refl fun p hp => by rw [hback p hp]

theorem World.probabilistic_moves (W : World dist inp g) (hsym : Symmetric dist inp) (hu : Undirected dist inp) (hl : LoopFree dist inp)
    (hW : HasWeights dist inp Wt) {fr ub : Nat → Nat → Nat} {c : Nat}
    (K : ColorClass dist inp node (fun p => fr p c) (fun p => ub p c)) (flip : Nat → Nat → Nat → Bool) {sch : Nat → SyncSchedule}
    (hsch : ∀ t, (sch t).Ok dist (fun p => fr p c) (fun p => ub p c)) : ∀ (m t : Nat) (P : Nat → Nat) (s : Nat → LPLocal),
    Mid dist inp g Wt cfg.k node (fun p => fr p c) (fun p => ub p c) P s →
    ∃ s' P', probabilisticMoves? (procs dist) cfg g node fr ub c flip sch m t s = some s' ∧
      Mid dist inp g Wt cfg.k node (fun p => fr p c) (fun p => ub p c) P' s' ∧ Improves dist inp Wt cfg bal P s P' s' ∧
      Frame dist node (fun p => fr p c) (fun p => ub p c) P s P' s'
  | 0, _, P, s, M => ⟨s, P, rfl, M, Improves.refl fun _ _ => rfl, Frame.refl fun _ _ => rfl⟩
  | m + 1, t, P, s, M => by
    obtain ⟨ok, s1, P1, h1, h2, h3, h4⟩ := W.try_moves (bal := bal) hsym hu hl hW K (flip t) (hsch t) M
    unfold probabilisticMoves?
    rw [h1, Option.bind_some]
    cases ok with
    | true => exact ⟨s1, P1, rfl, h2, h3, h4⟩
    | false =>
      obtain ⟨s', P', a1, a2, a3, a4⟩ := W.probabilistic_moves hsym hu hl hW K flip hsch m (t + 1) P1 s1 h2
      exact ⟨s', P', a1, a2, h3.trans a3, h4.trans a4⟩

end Verif.Dist
