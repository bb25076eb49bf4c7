import Verif.Dist.ColoredLPBest

/-!
# Moves that are executed without asking the other processes
-/

namespace Verif.Dist
open Verif Verif.Math Verif.Grid

variable {dist : List Nat} {inp : Nat → Input} {g : Nat → DGraph} {P : Nat → Nat} {Wt : Nat → Int} {cfg : LPConfig}
variable {node : Nat → Nat → Nat} {s : Nat → LPLocal} {bal : Prop}

theorem sum_filter_zero {α : Type} {f : α → Bool} {φ : α → Int} : ∀ (L : List α), (∀ i, i ∈ L → f i = false → φ i = 0) →
    (L.map φ).sum = ((L.filter f).map φ).sum
  | [], _ => rfl
  | i :: L, h => by
    have ih := sum_filter_zero L fun j hj => h j (List.mem_cons_of_mem _ hj)
    rw [List.map_cons, List.sum_cons, ih]
    cases hf : f i with
    | true => rw [List.filter_cons_of_pos hf, List.map_cons, List.sum_cons]
    | false => rw [List.filter_cons_of_neg (by rw [hf]; exact Bool.false_ne_true), h i List.mem_cons_self hf]; omega

/-- The partition after the nodes at the positions `mv p` have got their next blocks. -/
theorem World.selected {fr ub : Nat → Nat} (W : World dist inp g) (hu : Undirected dist inp) (hl : LoopFree dist inp)
    (K : ColorClass dist inp node fr ub) (M : Mid dist inp g Wt cfg.k node fr ub P s) (mv : Nat → List Nat) (hmvn : ∀ p, (mv p).Nodup)
    (hmv : ∀ p i, i ∈ mv p → (fr p ≤ i ∧ i < ub p) ∧ tried (s p) (node p) (fun _ => true) i = true) :
    ∃ P', (∀ p i, p < procs dist → i ∈ mv p → P' (first dist p + node p i) = target (s p) i) ∧
      (∀ p u, p < procs dist → u < localN dist p → (∀ i, i ∈ mv p → node p i ≠ u) → P' (first dist p + u) = P (first dist p + u)) ∧
      (∀ b, blockWeight dist Wt P' b = blockWeight dist Wt P b + ((List.range (procs dist)).map fun p => ((mv p).map fun i =>
        (if target (s p) i = b then Wt (first dist p + node p i) else 0) -
        (if P (first dist p + node p i) = b then Wt (first dist p + node p i) else 0)).sum).sum) ∧
      cut dist inp P - cut dist inp P' = ((List.range (procs dist)).map fun p => ((mv p).map (s p).gains).sum).sum ∧
      cut dist inp P' ≤ cut dist inp P ∧ (∀ a, a < globalN dist → P' a < cfg.k) ∧
      ∀ a, (∀ p i, p < procs dist → fr p ≤ i → i < ub p → a ≠ first dist p + node p i) → P' a = P a := by
  have hown : ∀ p, p < procs dist → ∀ u, u < localN dist p → (s p).part u = P (first dist p + u) := fun p hp u hu =>
    (M.agree p hp).1 _ _ ((W.represents p hp).own u hu)
  let r : List (Nat × Nat) := (List.range (procs dist)).flatMap fun p => (mv p).map fun i => (first dist p + node p i, target (s p) i)
  have hrmem : ∀ m, m ∈ r ↔ ∃ p i, p < procs dist ∧ i ∈ mv p ∧ m = (first dist p + node p i, target (s p) i) := by
    intro m
    show m ∈ List.flatMap _ _ ↔ _
    rw [List.mem_flatMap]
    constructor
    · rintro ⟨p, hp, h⟩
      obtain ⟨i, hi, rfl⟩ := List.mem_map.1 h
      exact ⟨p, i, List.mem_range.1 hp, hi, rfl⟩
    · rintro ⟨p, i, hp, hi, rfl⟩
      exact ⟨p, List.mem_range.2 hp, List.mem_map.2 ⟨i, hi, rfl⟩⟩
  have hr : FromClass dist node fr ub r := by
    intro m hm
    obtain ⟨p, i, hp, hi, rfl⟩ := (hrmem m).1 hm
    have := (hmv p i hi).1
    exact ⟨p, i, hp, this.1, this.2, rfl⟩
  have hgood : ∀ p i, p < procs dist → i ∈ mv p → (s p).next i = some (target (s p) i) ∧
      Good dist inp P cfg.k (first dist p + node p i) (some (target (s p) i)) ((s p).gains i) := by
    intro p i hp hi
    obtain ⟨h3, h4⟩ := hmv p i hi
    obtain ⟨h5, h6, _⟩ := tried_some h4
    rw [hown p hp _ (K.lt p hp i h3.1 h3.2)] at h6
    refine ⟨h5, ?_⟩
    rcases M.next p hp i h3.1 h3.2 with h | h | h
    · rw [h5] at h; cases h
    · rw [h5] at h
      injection h with h
      exact absurd h h6
    · rw [h5] at h; exact h
  have hn : (r.map (·.1)).Nodup := by
    show (List.map _ (List.flatMap _ _)).Nodup
    rw [List.map_flatMap, List.nodup_flatMap]
    constructor
    · intro p hp
      have hp := List.mem_range.1 hp
      rw [List.map_map]
      refine nodup_map_on (hmvn p) fun i hi j hj h => ?_
      have h3 := (hmv p i hi).1
      have h4 := (hmv p j hj).1
      exact (K.same W hp hp h3.1 h3.2 h4.1 h4.2 h).2
    · refine List.Pairwise.imp_of_mem (R := fun p q => p ≠ q) ?_ (List.nodup_range)
      intro p q hp hq hne x hx hy
      have hp := List.mem_range.1 hp
      have hq := List.mem_range.1 hq
      dsimp only at hx hy
      rw [List.map_map] at hx hy
      obtain ⟨i, hi, h3⟩ := List.mem_map.1 hx
      obtain ⟨j, hj, h4⟩ := List.mem_map.1 hy
      have h5 := (hmv p i hi).1
      have h6 := (hmv q j hj).1
      exact hne (K.same W hp hq h5.1 h5.2 h6.1 h6.2 (h3.trans h4.symm)).1
  have hsum : (r.map fun m => conn dist inp P m.1 m.2 - conn dist inp P m.1 (P m.1)).sum =
      ((List.range (procs dist)).map fun p => ((mv p).map (s p).gains).sum).sum := by
    show (List.map _ (List.flatMap _ _)).sum = _
    rw [sum_flatMap_map]
    congr 1
    apply List.map_congr_left
    intro p hp
    have hp := List.mem_range.1 hp
    rw [List.map_map]
    congr 1
    apply List.map_congr_left
    intro i hi
    obtain ⟨b, hb1, _, hb3, _⟩ := (hgood p i hp hi).2
    injection hb1 with hb1
    show conn dist inp P (first dist p + node p i) (target (s p) i) - _ = _
    rw [hb1]; exact hb3.symm
  have hge : 0 ≤ (r.map fun m => conn dist inp P m.1 m.2 - conn dist inp P m.1 (P m.1)).sum := by
    apply sum_nonneg
    intro x hx
    obtain ⟨m, hm, rfl⟩ := List.mem_map.1 hx
    obtain ⟨p, i, hp, hi, rfl⟩ := (hrmem m).1 hm
    obtain ⟨b, hb1, _, hb3, hb4⟩ := (hgood p i hp hi).2
    injection hb1 with hb1
    show 0 ≤ conn dist inp P (first dist p + node p i) (target (s p) i) - _
    rw [hb1, ← hb3]; exact hb4
  have hcut := K.cut_eq (P := P) hu hl hr hn
  refine ⟨applyMoves P r, fun p i hp hi => ?_, fun p u hp hu' h => ?_, fun b => ?_, ?_, ?_, ?_, fun a ha => K.frame hr ha⟩
  · exact applyMoves_moved r P hn ((hrmem _).2 ⟨p, i, hp, hi, rfl⟩)
  · refine applyMoves_other r P fun hm => ?_
    obtain ⟨m, hm, h3⟩ := List.mem_map.1 hm
    obtain ⟨q, i, hq, hi, rfl⟩ := (hrmem m).1 hm
    have h4 := (hmv q i hi).1
    have h5 := K.lt q hq i h4.1 h4.2
    have e : q = p := by
      rw [← (W.own_at hq h5).1, show first dist q + node q i = first dist p + u from h3]
      exact (W.own_at hp hu').1
    subst e
    exact h i hi (by have : first dist q + node q i = first dist q + u := h3; omega)
  · rw [weight_moves Wt r P hn (fun m hm => by
      obtain ⟨p, i, hp, hi, rfl⟩ := (hrmem m).1 hm
      have := (hmv p i hi).1
      exact (W.own_at hp (K.lt p hp i this.1 this.2)).2) b]
    congr 1
    show (List.map _ (List.flatMap _ _)).sum = _
    rw [sum_flatMap_map]
    congr 1
    apply List.map_congr_left
    intro p _
    rw [List.map_map]
    rfl
  · rw [hcut, hsum]
  · omega
  · refine applyMoves_lt r P M.blocks fun m hm => ?_
    obtain ⟨p, i, hp, hi, rfl⟩ := (hrmem m).1 hm
    obtain ⟨b, hb1, hb2, _⟩ := (hgood p i hp hi).2
    injection hb1 with hb1
    show target (s p) i < cfg.k
    rw [hb1]; exact hb2

theorem local_fold {node : Nat → Nat} : ∀ (L : List Nat) (st : LPLocal), L.Nodup → (∀ i j, i ∈ L → j ∈ L → node i = node j → i = j) →
    (∀ i, i ∈ L → st.next i ≠ none) →
    ∃ r, L.foldlM (moveLocally? node) st = some r ∧ r.weights = st.weights ∧ r.gains = st.gains ∧ r.deltas = st.deltas ∧
      r.gained = st.gained + ((L.filter (tried st node fun _ => true)).map st.gains).sum ∧
      (∀ i, i ∈ L.filter (tried st node fun _ => true) → r.part (node i) = target st i ∧ r.next i = none) ∧
      (∀ l, (∀ i, i ∈ L.filter (tried st node fun _ => true) → node i ≠ l) → r.part l = st.part l) ∧
      (∀ i, i ∉ L.filter (tried st node fun _ => true) → r.next i = st.next i)
  | [], st, _, _, _ => ⟨st, rfl, rfl, rfl, rfl, by simp, fun _ h => absurd h List.not_mem_nil, fun _ _ => rfl, fun _ _ => rfl⟩
  | i :: L, st, hn, hinj, hnone => by
    obtain ⟨hn1, hn2⟩ := List.nodup_cons.1 hn
    have hm : ∀ j, j ∈ L → j ∈ i :: L := fun j hj => List.mem_cons_of_mem _ hj
    have hni : ∀ j, j ∈ L → j ≠ i := fun j hj e => hn1 (e ▸ hj)
    have hnn : ∀ j, j ∈ L → node j ≠ node i := fun j hj e => hni j hj (hinj j i (hm j hj) List.mem_cons_self e)
    cases hb : st.next i with
    | none => exact absurd hb (hnone i List.mem_cons_self)
    | some b =>
      by_cases hbp : b ≠ st.part (node i)
      · -- moved
        generalize hs1 : ({ st with part := upd st.part (node i) b, next := upd st.next i none, gained := st.gained + st.gains i } : LPLocal) = s1
        have hstep : moveLocally? node st i = some s1 := by
          unfold moveLocally?
          rw [hb, Option.map_some, if_pos hbp, hs1]
        have e1 : s1.part = upd st.part (node i) b := by rw [← hs1]
        have e2 : s1.next = upd st.next i none := by rw [← hs1]
        have e3 : s1.gains = st.gains := by rw [← hs1]
        have hti : tried st node (fun _ => true) i = true := by
          unfold tried; rw [hb]; simpa using hbp
        have htar : target st i = b := by unfold target; rw [hb]; rfl
        have hsame : ∀ j, j ∈ L → tried s1 node (fun _ => true) j = tried st node (fun _ => true) j ∧ target s1 j = target st j := by
          intro j hj
          unfold tried target
          rw [e1, e2, upd_ne _ _ (hni j hj), upd_ne _ _ (hnn j hj)]
          exact ⟨rfl, rfl⟩
        have hfil : L.filter (tried s1 node fun _ => true) = L.filter (tried st node fun _ => true) :=
          List.filter_congr fun j hj => (hsame j hj).1
        obtain ⟨r, a1, a2, a3, a4, a5, a6, a7, a8⟩ := local_fold L s1 hn2 (fun x y hx hy => hinj x y (hm x hx) (hm y hy)) (fun j hj => by
          rw [e2, upd_ne _ _ (hni j hj)]; exact hnone j (hm j hj))
        rw [hfil] at a5 a6 a7 a8
        rw [List.foldlM_cons, hstep, List.filter_cons_of_pos hti]
        refine ⟨r, a1, by rw [a2, ← hs1], by rw [a3, e3], by rw [a4, ← hs1], ?_, fun j hj => ?_, fun l hl => ?_, fun j hj => ?_⟩
        · rw [a5, e3, List.map_cons, List.sum_cons]
          have : s1.gained = st.gained + st.gains i := by rw [← hs1]
          omega
        · rcases List.mem_cons.1 hj with rfl | hj
          · have hnot : j ∉ L.filter (tried st node fun _ => true) := fun h => hn1 (List.mem_filter.1 h).1
            rw [a7 (node j) fun x hx => hnn x (List.mem_filter.1 hx).1, a8 j hnot, e1, e2, upd_same, upd_same, htar]
            exact ⟨rfl, rfl⟩
          · rw [← (hsame j (List.mem_filter.1 hj).1).2]
            exact a6 j hj
        · rw [a7 l fun x hx => hl x (List.mem_cons_of_mem _ hx), e1, upd_ne _ _ (fun h => hl i List.mem_cons_self h.symm)]
        · rw [a8 j fun h => hj (List.mem_cons_of_mem _ h), e2, upd_ne _ _ (fun h : j = i => hj (by rw [h]; exact List.mem_cons_self))]
      · have hstep : moveLocally? node st i = some st := by
          unfold moveLocally?
          rw [hb, Option.map_some, if_neg hbp]
        have hti : tried st node (fun _ => true) i = false := by
          have : b = st.part (node i) := not_not.1 hbp
          unfold tried; rw [hb]; simpa using this
        rw [List.foldlM_cons, hstep, List.filter_cons_of_neg (by rw [hti]; exact Bool.false_ne_true)]
        exact local_fold L st hn2 (fun x y hx hy => hinj x y (hm x hx) (hm y hy)) fun j hj => hnone j (hm j hj)

theorem World.local_moves (W : World dist inp g) (hsym : Symmetric dist inp) (hu : Undirected dist inp) (hl : LoopFree dist inp)
    {fr ub : Nat → Nat → Nat} {c : Nat}
    (K : ColorClass dist inp node (fun p => fr p c) (fun p => ub p c)) {sch : SyncSchedule}
    (hsch : sch.Ok dist (fun p => fr p c) (fun p => ub p c)) (ht : cfg.track = true) (hbal : ¬ bal)
    (M : Mid dist inp g Wt cfg.k node (fun p => fr p c) (fun p => ub p c) P s)
    (hnone : ∀ p, p < procs dist → ∀ i, fr p c ≤ i → i < ub p c → (s p).next i ≠ none)
    (hdelta : ∀ p, p < procs dist → ∀ b, (s p).deltas b = ((List.range' (fr p c) (ub p c - fr p c)).map fun i =>
      (if (s p).next i = some b then Wt (first dist p + node p i) else 0) -
      (if P (first dist p + node p i) = b then Wt (first dist p + node p i) else 0)).sum) :
    ∃ s' P', localMoves? (procs dist) cfg g node fr ub c sch s = some s' ∧
      Mid dist inp g Wt cfg.k node (fun p => fr p c) (fun p => ub p c) P' s' ∧ Improves dist inp Wt cfg bal P s P' s' ∧
      Frame dist node (fun p => fr p c) (fun p => ub p c) P s P' s' := by
  have hrange : ∀ p i, i ∈ List.range' (fr p c) (ub p c - fr p c) ↔ fr p c ≤ i ∧ i < ub p c := by
    intro p i; rw [List.mem_range'_1]; omega
  have hown : ∀ p, p < procs dist → ∀ u, u < localN dist p → (s p).part u = P (first dist p + u) := fun p hp u hu =>
    (M.agree p hp).1 _ _ ((W.represents p hp).own u hu)
  have hwt : ∀ p, p < procs dist → ∀ b, b < cfg.k → (s p).weights b = blockWeight dist Wt P b := fun p hp => (M.agree p hp).2
  let mv : Nat → List Nat := fun p => (List.range' (fr p c) (ub p c - fr p c)).filter (tried (s p) (node p) fun _ => true)
  have hmv : ∀ p i, i ∈ mv p ↔ (fr p c ≤ i ∧ i < ub p c) ∧ tried (s p) (node p) (fun _ => true) i = true := by
    intro p i
    show i ∈ List.filter _ _ ↔ _
    rw [List.mem_filter, hrange]
  obtain ⟨P', b1, b2, b3, b4, b5, b6, b7⟩ := W.selected hu hl K M mv (fun p => List.Nodup.filter _ List.nodup_range') fun p i hi => (hmv p i).1 hi
  obtain ⟨t, h1, h2⟩ := forAll_ok LPLocal.zero (N := procs dist)
    (f := fun p => (List.range' (fr p c) (ub p c - fr p c)).foldlM (moveLocally? (node p)) (s p))
    (Q := fun p r => r.weights = (s p).weights ∧ r.gains = (s p).gains ∧ r.deltas = (s p).deltas ∧
      r.gained = (s p).gained + ((mv p).map (s p).gains).sum ∧
      (∀ i, i ∈ mv p → r.part (node p i) = target (s p) i ∧ r.next i = none) ∧
      (∀ l, (∀ i, i ∈ mv p → node p i ≠ l) → r.part l = (s p).part l) ∧
      (∀ i, i ∉ mv p → r.next i = (s p).next i)) (by
      intro p hp
      exact local_fold _ (s p) List.nodup_range'
        (fun i j hi hj => by
          rw [hrange] at hi hj
          exact K.inj p hp i j hi.1 hi.2 hj.1 hj.2)
        (fun i hi => by
          rw [hrange] at hi
          exact hnone p hp i hi.1 hi.2))
  have htotal : ∀ b, blockWeight dist Wt P' b = blockWeight dist Wt P b + ((List.range (procs dist)).map fun p => (t p).deltas b).sum := by
    intro b
    rw [b3 b]
    congr 2
    apply List.map_congr_left
    intro p hp
    have hp := List.mem_range.1 hp
    rw [(h2 p hp).2.2.1, hdelta p hp b, sum_filter_zero (f := tried (s p) (node p) fun _ => true) (List.range' (fr p c) (ub p c - fr p c))]
    · congr 1
      apply List.map_congr_left
      intro i hi
      obtain ⟨e, _⟩ := tried_some ((hmv p i).1 hi).2
      rw [e]
      simp only [Option.some.injEq]
    · intro i hi hf
      rw [hrange] at hi
      have hlt := K.lt p hp i hi.1 hi.2
      cases hb : (s p).next i with
      | none => exact absurd hb (hnone p hp i hi.1 hi.2)
      | some x =>
        have e : x = P (first dist p + node p i) := by
          unfold tried at hf
          rw [hb] at hf
          rw [← hown p hp _ hlt]
          by_contra hne
          simp [hne] at hf
        rw [e]
        simp only [Option.some.injEq]
        omega
  obtain ⟨s', h3, h4⟩ := forAll_ok LPLocal.zero (N := procs dist) (f := fun p => (lpSync? (procs dist) g node sch t p).map fun part =>
      ({ resetNext (node p) (fr p c) (ub p c) { t p with part := part } with
        deltas := fun b => ((List.range (procs dist)).map fun p => (t p).deltas b).sum
        weights := fun b => (t p).weights b + ((List.range (procs dist)).map fun p => (t p).deltas b).sum } : LPLocal))
    (Q := fun p s' => (∀ l v, (g p).localToGlobal? l = some v → s'.part l = P' v) ∧
      (∀ b, s'.weights b = (s p).weights b + ((List.range (procs dist)).map fun p => (t p).deltas b).sum) ∧
      s'.gained = (s p).gained + ((mv p).map (s p).gains).sum ∧
      (∀ i, fr p c ≤ i → i < ub p c → s'.next i = some (P' (first dist p + node p i))) ∧
      ∀ i, ¬ (fr p c ≤ i ∧ i < ub p c) → s'.next i = (s p).next i) (by
      intro p hp
      obtain ⟨part, h5, h6⟩ := W.lp_sync hsym K.lt hsch (s := t) (P := P) (P' := P')
        (fun q hq u hu' => by
          by_cases h : ∃ i, i ∈ mv q ∧ node q i = u
          · obtain ⟨i, hi, rfl⟩ := h
            rw [((h2 q hq).2.2.2.2.1 i hi).1, b1 q i hq hi]
          · have h' : ∀ i, i ∈ mv q → node q i ≠ u := fun i hi e => h ⟨i, hi, e⟩
            rw [(h2 q hq).2.2.2.2.2.1 u h', hown q hq u hu', b2 q u hq hu' h'])
        (fun q hq l v hlv hge => by
          rw [(h2 q hq).2.2.2.2.2.1 l fun i hi e => by
            have h3 := ((hmv q i).1 hi).1
            have := K.lt q hq i h3.1 h3.2
            omega]
          exact (M.agree q hq).1 l v hlv)
        (fun q hq u hu' hno => b2 q u hq hu' fun i hi e => by
          have h3 := ((hmv q i).1 hi).1
          exact hno i h3.1 h3.2 e ((h2 q hq).2.2.2.2.1 i hi).2)
        hp
      refine ⟨_, by rw [h5]; rfl, h6, fun b => ?_, ?_, fun i h7 h8 => ?_, fun i hi => ?_⟩
      · show (t p).weights b + _ = _
        rw [(h2 p hp).1]
      · exact (h2 p hp).2.2.2.1
      · show (if fr p c ≤ i ∧ i < ub p c then some (part (node p i)) else (t p).next i) = _
        rw [if_pos ⟨h7, h8⟩, h6 _ _ ((W.represents p hp).own _ (K.lt p hp i h7 h8))]
      · show (if fr p c ≤ i ∧ i < ub p c then some (part (node p i)) else (t p).next i) = _
        rw [if_neg hi]
        exact (h2 p hp).2.2.2.2.2.2 i fun h => hi ((hmv p i).1 h).1)
  refine ⟨s', P', ?_, ⟨fun p hp => ⟨(h4 p hp).1, fun b hb => ?_⟩, b6, fun p hp i hi1 hi2 => Or.inr (Or.inl ((h4 p hp).2.2.2.1 i hi1 hi2))⟩,
    ⟨?_, b5, fun h => absurd h hbal⟩, ⟨b7, fun p hp i hi => (h4 p hp).2.2.2.2 i hi⟩⟩
  · unfold localMoves?
    rw [if_pos ht, h1, Option.bind_some]
    exact h3
  · dsimp only
    rw [(h4 p hp).2.1 b, htotal b, hwt p hp b hb]
  · rw [b4]
    unfold totalGain
    rw [← sum_map_sub]
    congr 1
    apply List.map_congr_left
    intro p hp
    rw [(h4 p (List.mem_range.1 hp)).2.2.1]
    omega

end Verif.Dist
