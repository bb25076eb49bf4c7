import Verif.Dist.ColoredLPProb
import Mathlib.Data.List.Perm.Subperm

/-!
# Moves chosen by a reduction
-/

namespace Verif.Dist
open Verif Verif.Math Verif.Grid

variable {dist : List Nat} {inp : Nat → Input} {g : Nat → DGraph} {P : Nat → Nat} {Wt : Nat → Int} {cfg : LPConfig}
variable {node : Nat → Nat → Nat} {fr ub : Nat → Nat → Nat} {c : Nat} {s : Nat → LPLocal} {bal : Prop} {wts : Nat → Int}

/-! ## Merging two lists -/

/-- The accepted candidates do not make a block too heavy. -/
def Accepted (cfg : LPConfig) (wts : Nat → Int) (l : List Candidate) (d : Nat → Int) : Prop :=
  ∀ b, d b = (l.map fun c => if c.target = b then c.weight else 0).sum ∧
    ((∃ c, c ∈ l ∧ c.target = b) → wts b + d b ≤ cfg.limit b)

theorem tryAdd_fold : ∀ (L : List Candidate) (s : List Candidate × (Nat → Int)), Accepted cfg wts s.1 s.2 →
    ∃ acc, acc.Sublist L ∧ (L.foldl (tryAdd cfg wts) s).1 = s.1 ++ acc ∧
      Accepted cfg wts (L.foldl (tryAdd cfg wts) s).1 (L.foldl (tryAdd cfg wts) s).2
  | [], s, h => ⟨[], List.Sublist.refl _, (List.append_nil _).symm, h⟩
  | c :: L, s, h => by
    rw [List.foldl_cons]
    by_cases hc : wts c.target + s.2 c.target + c.weight ≤ cfg.limit c.target
    · have he : tryAdd cfg wts s c = (s.1 ++ [c], bump s.2 c.target c.weight) := if_pos hc
      have hA : Accepted cfg wts (tryAdd cfg wts s c).1 (tryAdd cfg wts s c).2 := by
        rw [he]
        intro b
        dsimp only
        rw [List.map_append, sum_append_int, ← (h b).1]
        unfold bump
        by_cases e : b = c.target
        · subst e
          rw [upd_same]
          refine ⟨?_, fun _ => by omega⟩
          simp only [List.map_cons, List.map_nil, List.sum_cons, List.sum_nil, if_true]
          omega
        · rw [upd_ne _ _ e]
          refine ⟨?_, fun ⟨x, hx, hxb⟩ => (h b).2 ⟨x, ?_, hxb⟩⟩
          · simp only [List.map_cons, List.map_nil, List.sum_cons, List.sum_nil]
            rw [if_neg fun h => e h.symm]
            omega
          · rcases List.mem_append.1 hx with hx | hx
            · exact hx
            · rw [List.mem_singleton] at hx
              exact absurd (hx ▸ hxb).symm e
      obtain ⟨acc, h1, h2, h3⟩ := tryAdd_fold L (tryAdd cfg wts s c) hA
      refine ⟨c :: acc, h1.cons_cons _, ?_, h3⟩
      rw [h2, he, List.append_assoc]
      rfl
    · have he : tryAdd cfg wts s c = s := if_neg hc
      rw [he]
      obtain ⟨acc, h1, h2, h3⟩ := tryAdd_fold L s h
      exact ⟨acc, h1.cons _, h2, h3⟩

theorem mergeLoop_ok {sort : List Candidate → List Candidate} (hs : ∀ l, (sort l).Perm l) :
    ∀ (fuel : Nat) (a b : List Candidate) (s : List Candidate × (Nat → Int)), Accepted cfg wts s.1 s.2 →
    ∃ acc, acc.Subperm (a ++ b) ∧ (mergeLoop cfg wts sort fuel a b s).1 = s.1 ++ acc ∧
      Accepted cfg wts (mergeLoop cfg wts sort fuel a b s).1 (mergeLoop cfg wts sort fuel a b s).2
  | fuel, [], b, s, h => by
    obtain ⟨acc, h1, h2, h3⟩ := tryAdd_fold b s h
    have e : mergeLoop cfg wts sort fuel [] b s = b.foldl (tryAdd cfg wts) s := by cases fuel <;> rfl
    rw [e]
    exact ⟨acc, h1.subperm, h2, h3⟩
  | fuel, x :: a, [], s, h => by
    obtain ⟨acc, h1, h2, h3⟩ := tryAdd_fold (x :: a) s h
    have e : mergeLoop cfg wts sort fuel (x :: a) [] s = (x :: a).foldl (tryAdd cfg wts) s := by cases fuel <;> rfl
    rw [e, List.append_nil]
    exact ⟨acc, h1.subperm, h2, h3⟩
  | 0, x :: a, y :: b, s, h => ⟨[], List.nil_subperm, (List.append_nil _).symm, h⟩
  | fuel + 1, x :: a, y :: b, s, h => by
    unfold mergeLoop
    dsimp only
    obtain ⟨acc, h1, h2, h3⟩ := tryAdd_fold (sort (((x :: a).takeWhile fun c => c.source == min x.source y.source) ++
      ((y :: b).takeWhile fun c => c.source == min x.source y.source))) s h
    obtain ⟨acc', h4, h5, h6⟩ := mergeLoop_ok hs fuel ((x :: a).dropWhile fun c => c.source == min x.source y.source)
      ((y :: b).dropWhile fun c => c.source == min x.source y.source) _ h3
    refine ⟨acc ++ acc', ?_, ?_, h6⟩
    · have h7 := (h1.subperm.trans (hs _).subperm).append h4
      refine h7.trans (List.Perm.subperm ?_)
      have e1 := List.takeWhile_append_dropWhile (p := fun c : Candidate => c.source == min x.source y.source) (l := x :: a)
      have e2 := List.takeWhile_append_dropWhile (p := fun c : Candidate => c.source == min x.source y.source) (l := y :: b)
      generalize (x :: a).takeWhile _ = ta at *
      generalize (y :: b).takeWhile _ = tb at *
      generalize (x :: a).dropWhile _ = da at *
      generalize (y :: b).dropWhile _ = db at *
      rw [← e1, ← e2, List.append_assoc, List.append_assoc]
      refine List.Perm.append_left _ ?_
      rw [← List.append_assoc, ← List.append_assoc]
      exact List.Perm.append_right _ List.perm_append_comm
    · rw [h5, h2, List.append_assoc]

/-- Enough steps: each step shortens one of the lists. -/
theorem mergeLoop_fuel {sort : List Candidate → List Candidate} : ∀ (fuel fuel' : Nat) (a b : List Candidate) (s : List Candidate × (Nat → Int)),
    a.length + b.length ≤ fuel → a.length + b.length ≤ fuel' → mergeLoop cfg wts sort fuel a b s = mergeLoop cfg wts sort fuel' a b s
  | fuel, fuel', [], b, s, _, _ => by cases fuel <;> cases fuel' <;> rfl
  | fuel, fuel', x :: a, [], s, _, _ => by cases fuel <;> cases fuel' <;> rfl
  | 0, _, x :: a, y :: b, s, h, _ => by simp at h
  | _ + 1, 0, x :: a, y :: b, s, _, h => by simp at h
  | fuel + 1, fuel' + 1, x :: a, y :: b, s, h, h' => by
    have key : ((x :: a).dropWhile fun c => c.source == min x.source y.source).length +
        ((y :: b).dropWhile fun c => c.source == min x.source y.source).length < (x :: a).length + (y :: b).length := by
      have h1 := (List.dropWhile_sublist (l := a) fun c => c.source == min x.source y.source).length_le
      have h2 := (List.dropWhile_sublist (l := b) fun c => c.source == min x.source y.source).length_le
      rw [List.dropWhile_cons, List.dropWhile_cons]
      by_cases hx : x.source = min x.source y.source
      · rw [if_pos (beq_iff_eq.2 hx)]
        split <;> simp only [List.length_cons] <;> omega
      · have hy : y.source = min x.source y.source := by omega
        rw [if_neg (fun h => hx (beq_iff_eq.1 h)), if_pos (beq_iff_eq.2 hy)]
        simp only [List.length_cons]; omega
    show mergeLoop cfg wts sort fuel _ _ _ = mergeLoop cfg wts sort fuel' _ _ _
    exact mergeLoop_fuel fuel fuel' _ _ _ (by omega) (by omega)

/-! ## The reduction -/

theorem subperm_flatMap {α β : Type} {f h : α → List β} : ∀ (l : List α), (∀ x, x ∈ l → (f x).Subperm (h x)) → (l.flatMap f).Subperm (l.flatMap h)
  | [], _ => List.nil_subperm
  | x :: l, hx => by
    rw [List.flatMap_cons, List.flatMap_cons]
    exact (hx x List.mem_cons_self).append (subperm_flatMap l fun y hy => hx y (List.mem_cons_of_mem _ hy))

theorem reduce_ok {weights : Nat → Nat → Int} {sort : Nat → List Candidate → List Candidate} (hs : ∀ p l, (sort p l).Perm l)
    (ht : cfg.track = true) : ∀ (j : Nat) (l : Nat → List Candidate), ∃ r, reduceCandidates? cfg weights sort j l = some r ∧
      r.Subperm ((List.range (2 ^ j)).flatMap l) ∧ (0 < j → ∃ d, Accepted cfg (weights 0) r d)
  | 0, l => ⟨l 0, rfl, by
      show (l 0).Subperm ((List.range 1).flatMap l)
      rw [show List.range 1 = [0] from rfl, List.flatMap_cons]
      exact (List.sublist_append_left _ _).subperm, fun h => absurd h (Nat.lt_irrefl 0)⟩
  | j + 1, l => by
    obtain ⟨l', h1, h2⟩ := forAll_ok (N := 2 ^ j) ([] : List Candidate)
      (f := fun p => mergeCandidates? cfg (weights p) (sort p) (l p) (l (p + 2 ^ j)))
      (Q := fun p r => r.Subperm (l p ++ l (p + 2 ^ j)) ∧ ∃ d, Accepted cfg (weights p) r d) (by
        intro p _
        obtain ⟨acc, a1, a2, a3⟩ := mergeLoop_ok (cfg := cfg) (wts := weights p) (hs p) ((l p).length + (l (p + 2 ^ j)).length) (l p)
          (l (p + 2 ^ j)) ([], fun _ => 0) (fun b => ⟨rfl, fun ⟨_, h, _⟩ => absurd h List.not_mem_nil⟩)
        refine ⟨_, if_pos (Or.inl ht), ?_, _, a3⟩
        rw [a2]
        exact a1)
    obtain ⟨r, h3, h4, h5⟩ := reduce_ok (weights := weights) hs ht j l'
    unfold reduceCandidates?
    rw [h1, Option.bind_some]
    refine ⟨r, h3, ?_, fun _ => ?_⟩
    · refine h4.trans ((subperm_flatMap _ fun p hp => (h2 p (List.mem_range.1 hp)).1).trans (List.Perm.subperm ?_))
      rw [Nat.pow_succ, Nat.mul_two, List.range_add, List.flatMap_append, List.flatMap_map]
      refine (List.flatMap_append_perm _ _ _).symm.trans ?_
      refine List.Perm.append_left _ (List.Perm.of_eq ?_)
      congr 1
      funext p
      rw [Nat.add_comm]
    · cases j with
      | zero =>
        obtain ⟨d, hd⟩ := (h2 0 Nat.one_pos).2
        have e : r = l' 0 := by injection h3 with h3; exact h3.symm
        rw [e]
        exact ⟨d, hd⟩
      | succ j => exact h5 (Nat.succ_pos _)

/-! ## Executing the moves -/

theorem World.move_candidate (W : World dist inp g) {p : Nat} (hp : p < procs dist) {x : Candidate} (hx : x.node < globalN dist)
    {P : Nat → Nat} (st : LPLocal) (hP : ∀ l v, (g p).localToGlobal? l = some v → st.part l = P v) :
    ∃ st', moveCandidate? (g p) st x = some st' ∧ (∀ l v, (g p).localToGlobal? l = some v → st'.part l = upd P x.node x.target v) ∧
      st'.next = (if ow dist x.node = p then upd st.next x.position none else st.next) ∧
      st'.gained = st.gained + (if ow dist x.node = p then x.gain else 0) ∧ st'.gains = st.gains ∧
      st'.weights = bump (bump st.weights x.target x.weight) x.source (-x.weight) := by
  have R := W.represents p hp
  have V := W.valid p hp
  unfold moveCandidate?
  rw [R.contains, Option.bind_some]
  by_cases hc : (decide (first dist p ≤ x.node ∧ x.node < first dist (p + 1)) || decide (x.node ∈ foreign dist p (inp p))) = true
  · rw [if_pos hc]
    have hl : ∃ l, (g p).localToGlobal? l = some x.node := by
      rw [Bool.or_eq_true, decide_eq_true_eq, decide_eq_true_eq] at hc
      rcases hc with h | h
      · refine ⟨x.node - first dist p, ?_⟩
        rw [R.own _ (by unfold localN; omega)]
        congr 1; omega
      · obtain ⟨hq, hq1, hq2⟩ := W.ow_bounds hx
        have hne : ow dist x.node ≠ p := by
          intro e
          rw [e] at hq1 hq2
          exact ((W.foreign_mem hp).1 h).2 ((V.owns_iff' hp).2 ⟨hq1, hq2⟩)
        have e : first dist (ow dist x.node) + (x.node - first dist (ow dist x.node)) = x.node := by omega
        have hr := W.mapRemote (u := x.node - first dist (ow dist x.node)) hp hq hne (by unfold localN; omega)
        rw [e] at hr
        obtain ⟨l, hl⟩ := hr.1 h
        exact ⟨l, (hr.2 l hl).2.2.1⟩
    obtain ⟨l, hl⟩ := hl
    obtain ⟨h1, h2⟩ := W.node hp hl
    have hn : l < (g p).n ↔ ow dist x.node = p := by
      rw [R.n_eq, W.ow_eq hp hx]
      rcases h2 with ⟨_, h3, h4, _⟩ | ⟨_, h3, h4, q, _, h5, h6⟩
      · unfold localN at h3 ⊢; omega
      · constructor
        · intro h; omega
        · intro h
          exact absurd (V.owns_unique h5 ((V.owns_iff' hp).2 h)) h6
    rw [h1, Option.map_some]
    refine ⟨_, rfl, fun l' v h' => ?_, ?_, ?_, rfl, rfl⟩
    · dsimp only
      by_cases e : v = x.node
      · subst e
        have : l' = l := by
          have := (W.node hp h').1
          rw [h1] at this
          injection this with this
          exact this.symm
        rw [this, upd_same, upd_same]
      · rw [upd_ne _ _ e, upd_ne _ _ (fun h => e (by rw [h, hl] at h'; injection h' with h'; exact h'.symm))]
        exact hP l' v h'
    · dsimp only
      by_cases h : ow dist x.node = p
      · rw [if_pos h, if_pos (hn.2 h)]
      · rw [if_neg h, if_neg fun h' => h (hn.1 h')]
    · dsimp only
      by_cases h : ow dist x.node = p
      · rw [if_pos h, if_pos (hn.2 h)]
      · rw [if_neg h, if_neg fun h' => h (hn.1 h')]; omega
  · rw [if_neg hc]
    rw [Bool.or_eq_true, decide_eq_true_eq, decide_eq_true_eq] at hc
    have h : ow dist x.node ≠ p := fun h => hc (Or.inl ((W.ow_eq hp hx).1 h))
    refine ⟨_, rfl, fun l v hl => ?_, ?_, ?_, rfl, rfl⟩
    · dsimp only
      have e : v ≠ x.node := by
        intro e
        subst e
        rcases (W.node hp hl).2 with ⟨_, _, _, h4⟩ | ⟨_, _, h4, _⟩
        · exact hc (Or.inl ((V.owns_iff' hp).1 h4))
        · exact hc (Or.inr h4)
      rw [upd_ne _ _ e]
      exact hP l v hl
    · rw [if_neg h]
    · rw [if_neg h]; dsimp only; omega

theorem World.move_candidates (W : World dist inp g) {p : Nat} (hp : p < procs dist) : ∀ (r : List Candidate) (P : Nat → Nat) (st : LPLocal),
    (∀ x, x ∈ r → x.node < globalN dist) → (∀ l v, (g p).localToGlobal? l = some v → st.part l = P v) →
    ∃ st', r.foldlM (moveCandidate? (g p)) st = some st' ∧
      (∀ l v, (g p).localToGlobal? l = some v → st'.part l = applyMoves P (r.map fun x => (x.node, x.target)) v) ∧
      (∀ x, x ∈ r → ow dist x.node = p → st'.next x.position = none) ∧
      (∀ i, (∀ x, x ∈ r → ow dist x.node = p → x.position ≠ i) → st'.next i = st.next i) ∧
      st'.gained = st.gained + (r.map fun x => if ow dist x.node = p then x.gain else 0).sum ∧ st'.gains = st.gains ∧
      ∀ b, st'.weights b = st.weights b +
        (r.map fun x => (if x.target = b then x.weight else 0) - (if x.source = b then x.weight else 0)).sum
  | [], P, st, _, hP => ⟨st, rfl, hP, fun _ h => absurd h List.not_mem_nil, fun _ _ => rfl, by simp, rfl, fun b => by simp⟩
  | x :: r, P, st, hx, hP => by
    obtain ⟨st1, h1, h2, h3, h4, h5, h6⟩ := W.move_candidate hp (hx x List.mem_cons_self) st hP
    obtain ⟨st', a1, a2, a3, a4, a5, a6, a7⟩ := W.move_candidates hp r (upd P x.node x.target) st1
      (fun y hy => hx y (List.mem_cons_of_mem _ hy)) h2
    rw [List.foldlM_cons, h1]
    refine ⟨st', a1, a2, fun y hy ho => ?_, fun i hi => ?_, ?_, a6.trans h5, fun b => ?_⟩
    · by_cases hr : ∃ z, z ∈ r ∧ ow dist z.node = p ∧ z.position = y.position
      · obtain ⟨z, hz, hzo, e⟩ := hr
        rw [← e]; exact a3 z hz hzo
      · have hr' : ∀ z, z ∈ r → ow dist z.node = p → z.position ≠ y.position := fun z h h' e => hr ⟨z, h, h', e⟩
        rw [a4 _ hr']
        rcases List.mem_cons.1 hy with rfl | hy
        · rw [h3, if_pos ho, upd_same]
        · exact absurd rfl (hr' y hy ho)
    · rw [a4 i fun y hy => hi y (List.mem_cons_of_mem _ hy), h3]
      by_cases ho : ow dist x.node = p
      · rw [if_pos ho, upd_ne _ _ (fun h => hi x List.mem_cons_self ho h.symm)]
      · rw [if_neg ho]
    · rw [a5, h4, List.map_cons, List.sum_cons]; omega
    · have e := a7 b
      rw [e, h6, List.map_cons, List.sum_cons]
      have : bump (bump st.weights x.target x.weight) x.source (-x.weight) b =
          st.weights b + ((if x.target = b then x.weight else 0) - (if x.source = b then x.weight else 0)) := by
        have h := bump_two (f := st.weights) (x := x.target) (y := x.source) (w := -x.weight) b
        rw [Int.neg_neg] at h
        rw [h]
        split <;> split <;> omega
      rw [this]; omega

/-! ## The candidates -/

/-- The candidate at position `i` of process `p`. -/
def theCandidate (dist : List Nat) (Wt : Nat → Int) (node : Nat → Nat → Nat) (P : Nat → Nat) (s : Nat → LPLocal) (p i : Nat) : Option Candidate :=
  match (s p).next i with
  | none => none
  | some b => if b = P (first dist p + node p i) then none
    else some ⟨i, first dist p + node p i, P (first dist p + node p i), b, (s p).gains i, Wt (first dist p + node p i)⟩

theorem theCandidate_some {p i : Nat} {x : Candidate} (h : theCandidate dist Wt node P s p i = some x) : ∃ b, (s p).next i = some b ∧
    b ≠ P (first dist p + node p i) ∧
    x = ⟨i, first dist p + node p i, P (first dist p + node p i), b, (s p).gains i, Wt (first dist p + node p i)⟩ := by
  unfold theCandidate at h
  cases hn : (s p).next i with
  | none => rw [hn] at h; cases h
  | some b =>
    rw [hn] at h
    dsimp only at h
    by_cases hb : b = P (first dist p + node p i)
    · rw [if_pos hb] at h; cases h
    · rw [if_neg hb] at h
      injection h with h
      exact ⟨b, rfl, hb, h.symm⟩

theorem World.the_candidates (W : World dist inp g) (hW : HasWeights dist inp Wt)
    (K : ColorClass dist inp node (fun p => fr p c) (fun p => ub p c))
    (hown : ∀ p, p < procs dist → ∀ u, u < localN dist p → (s p).part u = P (first dist p + u)) {p : Nat} (hp : p < procs dist) :
    candidates? (g p) (node p) (fr p c) (ub p c) (s p) =
      some ((List.range' (fr p c) (ub p c - fr p c)).filterMap (theCandidate dist Wt node P s p)) := by
  have R := W.represents p hp
  unfold candidates?
  rw [mapM_some (g := theCandidate dist Wt node P s p) (fun i hi => ?_)]
  · rw [Option.map_some, List.filterMap_map]; rfl
  · rw [List.mem_range'_1] at hi
    have hlt := K.lt p hp i hi.1 (by omega)
    unfold candidateAt? theCandidate
    cases (s p).next i with
    | none => rfl
    | some b =>
      dsimp only
      rw [hown p hp _ hlt]
      by_cases hb : b = P (first dist p + node p i)
      · rw [if_pos hb, if_pos hb]
      · rw [if_neg hb, if_neg hb, R.own _ hlt, Option.bind_some, R.node_weight _ hlt, Option.map_some, hW p hp _ hlt]

theorem World.best_moves (W : World dist inp g) (hu : Undirected dist inp) (hl : LoopFree dist inp)
    (hW : HasWeights dist inp Wt) (hpos : ∀ a, a < globalN dist → 0 ≤ Wt a)
    (K : ColorClass dist inp node (fun p => fr p c) (fun p => ub p c)) (ht : cfg.track = true) (h2 : 2 ^ Nat.log2 (procs dist) = procs dist)
    {sort sort' : Nat → List Candidate → List Candidate} (hs : ∀ p l, (sort p l).Perm l) (hs' : ∀ p l, (sort' p l).Perm l)
    (hbal : bal → 2 ≤ procs dist) (M : Mid dist inp g Wt cfg.k node (fun p => fr p c) (fun p => ub p c) P s) :
    ∃ s' P', bestMoves? (procs dist) cfg g node fr ub c sort sort' s = some s' ∧
      Mid dist inp g Wt cfg.k node (fun p => fr p c) (fun p => ub p c) P' s' ∧ Improves dist inp Wt cfg bal P s P' s' ∧
      Frame dist node (fun p => fr p c) (fun p => ub p c) P s P' s' := by
  have hown : ∀ p, p < procs dist → ∀ u, u < localN dist p → (s p).part u = P (first dist p + u) := fun p hp u hu =>
    (M.agree p hp).1 _ _ ((W.represents p hp).own u hu)
  have hwt : ∀ p, p < procs dist → ∀ b, b < cfg.k → (s p).weights b = blockWeight dist Wt P b := fun p hp => (M.agree p hp).2
  obtain ⟨l, h3, h4⟩ := forAll_ok ([] : List Candidate) (N := procs dist)
    (f := fun p => (candidates? (g p) (node p) (fr p c) (ub p c) (s p)).map (sort p))
    (Q := fun p r => r.Perm ((List.range' (fr p c) (ub p c - fr p c)).filterMap (theCandidate dist Wt node P s p))) (by
      intro p hp
      refine ⟨_, by rw [W.the_candidates hW K hown hp]; rfl, hs p _⟩)
  obtain ⟨r, h5, h6, h7⟩ := reduce_ok (cfg := cfg) (weights := fun p => (s p).weights) hs' ht (Nat.log2 (procs dist)) l
  rw [h2] at h6
  -- the candidates that may be chosen
  let all : List Candidate := (List.range (procs dist)).flatMap fun p =>
    (List.range' (fr p c) (ub p c - fr p c)).filterMap (theCandidate dist Wt node P s p)
  have hall : r.Subperm all := h6.trans (subperm_flatMap _ fun p hp => (h4 p (List.mem_range.1 hp)).subperm)
  have hmem : ∀ x, x ∈ all → ∃ p i, p < procs dist ∧ (fr p c ≤ i ∧ i < ub p c) ∧ theCandidate dist Wt node P s p i = some x := by
    intro x hx
    obtain ⟨p, hp, hx⟩ := List.mem_flatMap.1 hx
    obtain ⟨i, hi, hx⟩ := List.mem_filterMap.1 hx
    rw [List.mem_range'_1] at hi
    exact ⟨p, i, List.mem_range.1 hp, by omega, hx⟩
  have hnode : ∀ p i x, theCandidate dist Wt node P s p i = some x → x.node = first dist p + node p i ∧ x.position = i := by
    intro p i x h
    obtain ⟨b, _, _, rfl⟩ := theCandidate_some h
    exact ⟨rfl, rfl⟩
  have hkey : ∀ x, x ∈ all → ∀ y, y ∈ all → x.node = y.node → x = y := by
    intro x hx y hy e
    obtain ⟨p, i, hp, hi, h⟩ := hmem x hx
    obtain ⟨q, j, hq, hj, h'⟩ := hmem y hy
    rw [(hnode _ _ _ h).1, (hnode _ _ _ h').1] at e
    obtain ⟨rfl, rfl⟩ := K.same W hp hq hi.1 hi.2 hj.1 hj.2 e
    rw [h] at h'
    injection h'
  have halln : all.Nodup := by
    show (List.flatMap _ _).Nodup
    rw [List.nodup_flatMap]
    constructor
    · intro p _
      refine List.Nodup.filterMap (fun i j x hi hj => ?_) List.nodup_range'
      rw [Option.mem_def] at hi hj
      rw [← (hnode _ _ _ hi).2, (hnode _ _ _ hj).2]
    · refine List.Pairwise.imp_of_mem (R := fun p q => p ≠ q) ?_ List.nodup_range
      intro p q hp hq hne x hx hy
      have hp := List.mem_range.1 hp
      have hq := List.mem_range.1 hq
      obtain ⟨i, hi, hx⟩ := List.mem_filterMap.1 hx
      obtain ⟨j, hj, hy⟩ := List.mem_filterMap.1 hy
      rw [List.mem_range'_1] at hi hj
      refine hne (K.same W hp hq (i := i) (j := j) hi.1 (by omega) hj.1 (by omega) ?_).1
      rw [← (hnode _ _ _ hx).1, (hnode _ _ _ hy).1]
  have hsub : ∀ x, x ∈ r → x ∈ all := fun x hx => hall.subset hx
  have hrn : r.Nodup := by
    obtain ⟨r', e1, e2⟩ := hall
    exact e1.nodup_iff.1 (e2.nodup halln)
  generalize hmoves : (r.map fun x => (x.node, x.target)) = mvs
  have hn : (mvs.map (·.1)).Nodup := by
    rw [← hmoves, List.map_map]
    exact nodup_map_on hrn fun x hx y hy e => hkey x (hsub x hx) y (hsub y hy) e
  have hfrom : FromClass dist node (fun p => fr p c) (fun p => ub p c) mvs := by
    intro m hm
    rw [← hmoves] at hm
    obtain ⟨x, hx, rfl⟩ := List.mem_map.1 hm
    obtain ⟨p, i, hp, hi, h⟩ := hmem x (hsub x hx)
    exact ⟨p, i, hp, hi.1, hi.2, (hnode _ _ _ h).1⟩
  have hgood : ∀ x, x ∈ r → x.node < globalN dist ∧ x.source = P x.node ∧ x.weight = Wt x.node ∧ x.target < cfg.k ∧
      x.gain = conn dist inp P x.node x.target - conn dist inp P x.node (P x.node) ∧ 0 ≤ x.gain := by
    intro x hx
    obtain ⟨p, i, hp, hi, h⟩ := hmem x (hsub x hx)
    obtain ⟨b, hb, hbP, rfl⟩ := theCandidate_some h
    dsimp only
    refine ⟨(W.own_at hp (K.lt p hp i hi.1 hi.2)).2, rfl, rfl, ?_⟩
    rcases M.next p hp i hi.1 hi.2 with h' | h' | h'
    · rw [hb] at h'; cases h'
    · rw [hb] at h'
      injection h' with h'
      exact absurd h' hbP
    · rw [hb] at h'
      obtain ⟨b', e, g1, g2, g3⟩ := h'
      injection e with e
      subst e
      exact ⟨g1, g2, g3⟩
  generalize hP' : applyMoves P mvs = P'
  have hglob : ∀ m, m ∈ mvs → m.1 < globalN dist := by
    intro m hm
    rw [← hmoves] at hm
    obtain ⟨x, hx, rfl⟩ := List.mem_map.1 hm
    exact (hgood x hx).1
  have hweights : ∀ b, blockWeight dist Wt P' b = blockWeight dist Wt P b +
      (r.map fun x => (if x.target = b then x.weight else 0) - (if x.source = b then x.weight else 0)).sum := by
    intro b
    rw [← hP', weight_moves Wt mvs P hn hglob b, ← hmoves, List.map_map]
    congr 2
    apply List.map_congr_left
    intro x hx
    obtain ⟨_, e1, e2, _⟩ := hgood x hx
    show (if x.target = b then Wt x.node else 0) - (if P x.node = b then Wt x.node else 0) = _
    rw [e1, e2]
  obtain ⟨s', h8, h9⟩ := forAll_ok LPLocal.zero (N := procs dist) (f := fun p => r.foldlM (moveCandidate? (g p)) (s p))
    (Q := fun p st' => (∀ l v, (g p).localToGlobal? l = some v → st'.part l = P' v) ∧
      (∀ x, x ∈ r → ow dist x.node = p → st'.next x.position = none) ∧
      (∀ i, (∀ x, x ∈ r → ow dist x.node = p → x.position ≠ i) → st'.next i = (s p).next i) ∧
      st'.gained = (s p).gained + (r.map fun x => if ow dist x.node = p then x.gain else 0).sum ∧ st'.gains = (s p).gains ∧
      ∀ b, st'.weights b = (s p).weights b +
        (r.map fun x => (if x.target = b then x.weight else 0) - (if x.source = b then x.weight else 0)).sum) (by
      intro p hp
      have := W.move_candidates hp r P (s p) (fun x hx => (hgood x hx).1) (M.agree p hp).1
      rw [hmoves, hP'] at this
      exact this)
  have hpos' : ∀ p, p < procs dist → ∀ i, ¬ (fr p c ≤ i ∧ i < ub p c) → ∀ x, x ∈ r → ow dist x.node = p → x.position ≠ i := by
    intro p hp i hi x hx ho e
    obtain ⟨q, j, hq, hj, h⟩ := hmem x (hsub x hx)
    obtain ⟨e1, e2⟩ := hnode _ _ _ h
    rw [e1, (W.own_at hq (K.lt q hq j hj.1 hj.2)).1] at ho
    subst ho
    exact hi (by omega)
  refine ⟨s', P', ?_, ?_, ?_, ?_⟩
  · unfold bestMoves?
    rw [if_pos h2, h3, Option.bind_some, h5, Option.bind_some, h8]
  · refine ⟨fun p hp => ⟨(h9 p hp).1, fun b hb => ?_⟩, ?_, fun p hp i hi1 hi2 => ?_⟩
    · dsimp only
      rw [(h9 p hp).2.2.2.2.2 b, hweights b, hwt p hp b hb]
    · rw [← hP']
      refine applyMoves_lt mvs P M.blocks fun m hm => ?_
      rw [← hmoves] at hm
      obtain ⟨x, hx, rfl⟩ := List.mem_map.1 hm
      exact (hgood x hx).2.2.2.1
    · by_cases h : ∃ x, x ∈ r ∧ ow dist x.node = p ∧ x.position = i
      · obtain ⟨x, hx, ho, rfl⟩ := h
        left
        exact (h9 p hp).2.1 x hx ho
      · have h' : ∀ x, x ∈ r → ow dist x.node = p → x.position ≠ i := fun x hx ho e => h ⟨x, hx, ho, e⟩
        have hsm : P' (first dist p + node p i) = P (first dist p + node p i) := by
          rw [← hP']
          refine applyMoves_other mvs P fun hm => ?_
          rw [← hmoves, List.map_map] at hm
          obtain ⟨x, hx, e⟩ := List.mem_map.1 hm
          have e : x.node = first dist p + node p i := e
          obtain ⟨q, j, hq, hj, hxx⟩ := hmem x (hsub x hx)
          obtain ⟨e1, e2⟩ := hnode _ _ _ hxx
          obtain ⟨rfl, rfl⟩ := K.same W hq hp hj.1 hj.2 hi1 hi2 (e1.symm.trans e)
          refine h' x hx ?_ e2
          rw [e]
          exact (W.own_at hp (K.lt _ hp _ hi1 hi2)).1
        rw [(h9 p hp).2.2.1 i h', (h9 p hp).2.2.2.2.1, hsm]
        rcases M.next p hp i hi1 hi2 with h | h | h
        · left; exact h
        · right; left; exact h
        · right; right
          rw [← hP']
          exact K.good_moves hfrom hp hi1 hi2 (by rw [hP']; exact hsm) h
  · have hcut := K.cut_eq (P := P) hu hl hfrom hn
    rw [hP', ← hmoves, List.map_map] at hcut
    have e1 : (r.map ((fun m : Nat × Nat => conn dist inp P m.1 m.2 - conn dist inp P m.1 (P m.1)) ∘ fun x : Candidate => (x.node, x.target))) =
        r.map (·.gain) := by
      apply List.map_congr_left
      intro x hx
      exact (hgood x hx).2.2.2.2.1.symm
    rw [e1] at hcut
    have hgain : (r.map (·.gain)).sum = totalGain dist s' - totalGain dist s := by
      unfold totalGain
      rw [← sum_map_sub]
      have e2 : ((List.range (procs dist)).map fun p => (s' p).gained - (s p).gained) =
          (List.range (procs dist)).map fun p => (r.map fun x => if ow dist x.node = p then x.gain else 0).sum := by
        apply List.map_congr_left
        intro p hp
        rw [(h9 p (List.mem_range.1 hp)).2.2.2.1]
        omega
      rw [e2]
      have h : ∀ x, x ∈ r → ow dist x.node < procs dist := fun x hx => (W.ow_bounds (hgood x hx).1).1
      clear e1 e2 hcut h5 h6 h7 hall hsub hrn hmoves hgood h8 h9 hweights hpos'
      induction r with
      | nil => exact (sum_map_zero _).symm
      | cons x r ih =>
        rw [List.map_cons, List.sum_cons, ih fun y hy => h y (List.mem_cons_of_mem _ hy)]
        have e := sum_single (ow dist x.node) x.gain (procs dist)
        rw [if_pos (h x List.mem_cons_self)] at e
        rw [← e, ← sum_map_add]
        congr 1
        apply List.map_congr_left
        intro p _
        rw [List.map_cons, List.sum_cons]
        congr 1
        by_cases h : p = ow dist x.node
        · rw [if_pos h, if_pos h.symm]
        · rw [if_neg h, if_neg fun h' => h h'.symm]
    have hge : 0 ≤ (r.map (·.gain)).sum := by
      apply sum_nonneg
      intro y hy
      obtain ⟨x, hx, rfl⟩ := List.mem_map.1 hy
      exact (hgood x hx).2.2.2.2.2
    refine ⟨by omega, by omega, fun hb b hk => ?_⟩
    have hlog : 0 < Nat.log2 (procs dist) := by
      rcases Nat.eq_zero_or_pos (Nat.log2 (procs dist)) with h | h
      · have := hbal hb
        rw [h] at h2
        simp at h2
        omega
      · exact h
    obtain ⟨d, hd⟩ := h7 hlog
    obtain ⟨d1, d2⟩ := hd b
    rw [hwt 0 W.some_process b hk] at d2
    rw [hweights b]
    have esub : (r.map fun x => (if x.target = b then x.weight else 0) - (if x.source = b then x.weight else 0)).sum =
        (r.map fun x => if x.target = b then x.weight else 0).sum - (r.map fun x => if x.source = b then x.weight else 0).sum := sum_map_sub _ _ _
    have hsrc : 0 ≤ (r.map fun x => if x.source = b then x.weight else 0).sum := by
      apply sum_nonneg
      intro y hy
      obtain ⟨x, hx, rfl⟩ := List.mem_map.1 hy
      obtain ⟨e1, _, e2, _⟩ := hgood x hx
      split
      · rw [e2]; exact hpos _ e1
      · exact Int.le_refl _
    by_cases ha : ∃ x, x ∈ r ∧ x.target = b
    · have := d2 ha
      omega
    · have : (r.map fun x => if x.target = b then x.weight else 0).sum = 0 := by
        have e : (r.map fun x => if x.target = b then x.weight else 0) = r.map fun _ => 0 := by
          apply List.map_congr_left
          intro x hx
          exact if_neg fun h => ha ⟨x, hx, h⟩
        rw [e]; exact sum_map_zero _
      omega
  · refine ⟨fun a ha => ?_, fun p hp i hi => ?_⟩
    · rw [← hP']; exact K.frame hfrom ha
    · exact (h9 p hp).2.2.1 i (hpos' p hp i hi)

end Verif.Dist
