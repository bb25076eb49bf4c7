import Verif.Dist.CutProps
import Verif.Dist.Jet
import Verif.Dist.JetSpec

/-!
# C67: distributed Jet refinement keeps all processes consistent and returns the best partition it has seen
-/

namespace Verif.Dist
open Verif Verif.Math

variable {dist : List Nat} {inp : Nat → Input} {g : Nat → DGraph}

/-! ## Lemmas -/

theorem forAll_ok {β : Type} {N : Nat} (d : β) {f : Nat → Option β} {Q : Nat → β → Prop}
    (h : ∀ p, p < N → ∃ r, f p = some r ∧ Q p r) : ∃ F, forAll? N d f = some F ∧ ∀ p, p < N → Q p (F p) := by
  have h' : ∀ p, ∃ r, p < N → f p = some r ∧ Q p r := by
    intro p
    by_cases hp : p < N
    · obtain ⟨r, hr⟩ := h p hp
      exact ⟨r, fun _ => hr⟩
    · exact ⟨d, fun h => absurd h hp⟩
  choose F hF using h'
  refine ⟨fun p => ((List.range N).map F).getD p d, ?_, fun p hp => ?_⟩
  · unfold forAll?
    rw [mapM_some (g := F) fun p hp => (hF p (List.mem_range.1 hp)).1]
    rfl
  · show Q p (((List.range N).map F).getD p d)
    rw [show ((List.range N).map F).getD p d = F p by simp [hp]]
    exact (hF p hp).2

theorem add_fold_abs {B : Int} : ∀ (l : List Int) (a : Int), |a| + (l.map fun x => |x|).sum < B →
    l.foldlM (add? B) a = some (a + l.sum)
  | [], a, _ => by rw [List.sum_nil, Int.add_zero]; rfl
  | x :: l, a, h => by
    rw [List.map_cons, List.sum_cons] at h
    have h0 : 0 ≤ (l.map fun x => |x|).sum := sum_nonneg fun y hy => by
      obtain ⟨z, _, rfl⟩ := List.mem_map.1 hy
      exact abs_nonneg z
    have h1 : |a + x| ≤ |a| + |x| := abs_add_le a x
    have h2 : add? B a x = some (a + x) := by
      unfold add?
      have := abs_lt.1 (show |a + x| < B by omega)
      exact if_pos ⟨by omega, by omega⟩
    rw [List.foldlM_cons, h2]
    show l.foldlM (add? B) (a + x) = _
    rw [add_fold_abs l (a + x) (by omega), List.sum_cons, Int.add_assoc]

theorem findMoves_eq {n : Nat} {part : Nat → Nat} {locked : Nat → Bool} {P : Nat → Nat} {moved : Nat → Bool} {best : Nat → Int × Nat}
    {accept : Nat → Bool} {f u : Nat} (hu : u < n) (hp : part u = P (f + u)) (hl : locked u = moved (f + u)) (c : Nat → Int × Nat) :
    findMoves n part locked (fun u => best (f + u)) (fun u => accept (f + u)) c u = candidate P moved best accept (f + u) := by
  unfold findMoves candidate
  rw [if_pos hu, hp, hl]

theorem candidate_same {P : Nat → Nat} {moved : Nat → Bool} {best : Nat → Int × Nat} {accept : Nat → Bool} {a : Nat}
    (h : (candidate P moved best accept a).2 = P a) : candidate P moved best accept a = (0, P a) := by
  unfold candidate at h ⊢
  by_cases h1 : moved a = true
  · rw [if_pos h1]
  · rw [if_neg h1] at h ⊢
    by_cases h2 : (best a).2 ≠ P a ∧ accept a = true
    · rw [if_pos h2] at h
      exact absurd h h2.1
    · rw [if_neg h2]

/-- The moves of the nodes in `order`. -/
theorem moveLocked_ok {gr : DGraph} {k : Nat} {locked : Nat → Bool} {cand : Nat → Int × Nat} {w : Nat → Int} {part : Nat → Nat} :
    ∀ (order : List Nat) (s : (Nat → Nat) × (Nat → Int)), order.Nodup → (∀ u, u ∈ order → gr.nodeWeight? u = some (w u)) →
      (∀ u, u ∈ order → s.1 u = part u) → (∀ u, u ∈ order → part u < k) → (∀ u, u ∈ order → locked u = true → (cand u).2 < k) →
      ∃ r, order.foldlM (moveNode? gr k locked cand) s = some r ∧
        (∀ l, r.1 l = if l ∈ order ∧ locked l = true then (cand l).2 else s.1 l) ∧
        ∀ b, r.2 b = s.2 b + (order.map fun u => if locked u = true then
          (if (cand u).2 = b then w u else 0) - (if part u = b then w u else 0) else 0).sum
  | [], s, _, _, _, _, _ => by
    refine ⟨s, rfl, fun l => ?_, fun b => ?_⟩
    · rw [if_neg]
      rintro ⟨h, _⟩
      cases h
    · rw [List.map_nil, List.sum_nil, Int.add_zero]
  | u :: order, s, hn, hw, hs, hk, hc => by
    obtain ⟨hn1, hn2⟩ := List.nodup_cons.1 hn
    have hm : ∀ v, v ∈ order → v ∈ u :: order := fun v hv => List.mem_cons_of_mem _ hv
    by_cases hl : locked u = true
    · have hstep : moveNode? gr k locked cand s u =
          some (upd s.1 u (cand u).2, bump (bump s.2 (part u) (-w u)) (cand u).2 (w u)) := by
        unfold moveNode?
        rw [if_pos hl, hw u List.mem_cons_self, Option.bind_some, hs u List.mem_cons_self,
          if_pos ⟨hk u List.mem_cons_self, hc u List.mem_cons_self hl⟩]
      obtain ⟨r, h1, h2, h3⟩ := moveLocked_ok order (upd s.1 u (cand u).2, bump (bump s.2 (part u) (-w u)) (cand u).2 (w u)) hn2
        (fun v hv => hw v (hm v hv)) (fun v hv => by
          have : v ≠ u := fun h => hn1 (h ▸ hv)
          show upd s.1 u (cand u).2 v = _
          rw [upd_ne _ _ this]; exact hs v (hm v hv)) (fun v hv => hk v (hm v hv)) (fun v hv => hc v (hm v hv))
      refine ⟨r, ?_, fun l => ?_, fun b => ?_⟩
      · rw [List.foldlM_cons, hstep]; exact h1
      · rw [h2 l]
        show (if l ∈ order ∧ locked l = true then (cand l).2 else upd s.1 u (cand u).2 l) = _
        by_cases h : l = u
        · subst h
          rw [if_neg fun h => hn1 h.1, upd_same, if_pos ⟨List.mem_cons_self, hl⟩]
        · rw [upd_ne _ _ h]
          by_cases h' : l ∈ order ∧ locked l = true
          · rw [if_pos h', if_pos ⟨hm l h'.1, h'.2⟩]
          · rw [if_neg h', if_neg]
            rintro ⟨h5, h6⟩
            rcases List.mem_cons.1 h5 with h5 | h5
            · exact h h5
            · exact h' ⟨h5, h6⟩
      · rw [h3 b, List.map_cons, List.sum_cons, if_pos hl]
        have hb : bump (bump s.2 (part u) (-w u)) (cand u).2 (w u) b =
            s.2 b + ((if (cand u).2 = b then w u else 0) - (if part u = b then w u else 0)) := by
          unfold bump upd
          by_cases e1 : b = (cand u).2 <;> by_cases e2 : b = part u
          · subst e1
            rw [if_pos rfl, if_pos e2, if_pos rfl, if_pos e2.symm]; rw [← e2]; omega
          · subst e1
            rw [if_pos rfl, if_neg e2, if_pos rfl, if_neg (Ne.symm e2)]; omega
          · subst e2
            rw [if_neg e1, if_pos rfl, if_neg (Ne.symm e1), if_pos rfl]; omega
          · rw [if_neg e1, if_neg e2, if_neg (Ne.symm e1), if_neg (Ne.symm e2)]; omega
        show bump (bump s.2 (part u) (-w u)) (cand u).2 (w u) b + _ = _
        rw [hb]; omega
    · have hstep : moveNode? gr k locked cand s u = some s := by unfold moveNode?; rw [if_neg hl]
      obtain ⟨r, h1, h2, h3⟩ := moveLocked_ok order s hn2
        (fun v hv => hw v (hm v hv)) (fun v hv => hs v (hm v hv)) (fun v hv => hk v (hm v hv)) (fun v hv => hc v (hm v hv))
      refine ⟨r, ?_, fun l => ?_, fun b => ?_⟩
      · rw [List.foldlM_cons, hstep]; exact h1
      · rw [h2 l]
        by_cases h' : l ∈ order ∧ locked l = true
        · rw [if_pos h', if_pos ⟨hm l h'.1, h'.2⟩]
        · rw [if_neg h', if_neg]
          rintro ⟨h5, h6⟩
          rcases List.mem_cons.1 h5 with h5 | h5
          · exact hl (h5 ▸ h6)
          · exact h' ⟨h5, h6⟩
      · rw [h3 b, List.map_cons, List.sum_cons, if_neg hl, Int.zero_add]

/-- The candidates of all nodes and ghost nodes are those of the whole graph. -/
theorem candidates_ok (W : World dist inp g) (hsym : Symmetric dist inp) (sch : JetSchedule) {P : Nat → Nat} {moved : Nat → Bool}
    {s : JetState} (hpart : ∀ p, p < procs dist → ∀ l v, (g p).localToGlobal? l = some v → s.part p l = P v)
    (hlock : ∀ p, p < procs dist → ∀ u, u < localN dist p → s.locked p u = moved (first dist p + u))
    (hex : Executions dist (fun _ => 0) (localN dist) sch.candidates) (hsh : ∀ l, (sch.shuffle l).Perm l)
    (best : Nat → Int × Nat) (accept : Nat → Bool) :
    ∃ cand, jetCandidates? (procs dist) g sch (fun p u => best (first dist p + u)) (fun p u => accept (first dist p + u)) s = some cand ∧
      ∀ p, p < procs dist → ∀ l v, (g p).localToGlobal? l = some v → cand p l = candidate P moved best accept v := by
  have hcand : ∀ p, p < procs dist → ∀ u, u < localN dist p →
      findMoves (g p).n (s.part p) (s.locked p) (fun u => best (first dist p + u)) (fun u => accept (first dist p + u))
        (fun _ => (0, 0)) u = candidate P moved best accept (first dist p + u) := by
    intro p hp u hu
    refine findMoves_eq (by rw [(W.represents p hp).n_eq]; exact hu) ?_ (hlock p hp u hu) _
    exact hpart p hp u _ ((W.represents p hp).own u hu)
  unfold jetCandidates?
  refine forAll_ok _ (Q := fun p (c : Nat → Int × Nat) => ∀ l v, (g p).localToGlobal? l = some v → c l = candidate P moved best accept v) fun me hme => ?_
  obtain ⟨arr, h1, h2⟩ := C65_filtered_synchronization W hsym (0, ((0 : Int), 0)) sch.candidates hex
    (fun p => isCandidate (s.part p) (findMoves (g p).n (s.part p) (s.locked p) (fun u => best (first dist p + u))
      (fun u => accept (first dist p + u)) fun _ => (0, 0)))
    (fun p => findMoves (g p).n (s.part p) (s.locked p) (fun u => best (first dist p + u))
      (fun u => accept (first dist p + u)) fun _ => (0, 0))
    sch.shuffle hsh me hme (g me).totalN (Nat.le_refl _)
    (resetGhosts (g me).n (s.part me) (findMoves (g me).n (s.part me) (s.locked me) (fun u => best (first dist me + u))
      (fun u => accept (first dist me + u)) fun _ => (0, 0)))
  refine ⟨arr, h1, fun l v hl => ?_⟩
  rcases (W.node hme hl).2 with ⟨_, h5, h6, h7⟩ | ⟨_, h5, h6, q, _, h7, h8⟩
  · rw [h2 l v me hl h7, if_neg fun h => h.1 rfl]
    unfold resetGhosts
    rw [if_neg (by rw [(W.represents me hme).n_eq]; omega), hcand me hme l h5, h6]
  · have hq := h7.lt
    have hb := ((W.valid me hme).owns_iff' hq).1 h7
    have hloc : v - first dist q < localN dist q := by unfold localN; omega
    have hv : first dist q + (v - first dist q) = v := by omega
    rw [h2 l v q hl h7, hcand q hq _ hloc, hv]
    have hpv : s.part q (v - first dist q) = P v := by
      have := hpart q hq _ _ ((W.represents q hq).own _ hloc)
      rw [this, hv]
    by_cases hc : (candidate P moved best accept v).2 = P v
    · rw [if_neg]
      · unfold resetGhosts
        rw [if_pos (by rw [(W.represents me hme).n_eq]; exact h5), hpart me hme l v hl, candidate_same hc]
      · rintro ⟨_, h9⟩
        unfold isCandidate at h9
        rw [decide_eq_true_iff, hcand q hq _ hloc, hv, hpv] at h9
        exact h9 hc
    · rw [if_pos]
      refine ⟨h8, ?_⟩
      unfold isCandidate
      rw [decide_eq_true_iff, hcand q hq _ hloc, hv, hpv]
      exact hc

/-- The filter decides as specified. -/
theorem filterNode_ok (W : World dist inp g) {P : Nat → Nat} {C : Nat → Int × Nat} {p : Nat} (hp : p < procs dist)
    {part : Nat → Nat} {cand : Nat → Int × Nat} (hpart : ∀ l v, (g p).localToGlobal? l = some v → part l = P v)
    (hcand : ∀ l v, (g p).localToGlobal? l = some v → cand l = C v) {u : Nat} (hu : u < localN dist p)
    (hfit : (((inp p).neighbours u).map fun x => |x.2|).sum < 2 ^ 31) :
    filterNode? (g p) part cand u = some (decide (Moves dist inp P C p u)) := by
  have hown := (W.represents p hp).own u hu
  obtain ⟨l, hl, hm⟩ := (W.represents p hp).neighbours u hu
  let t : Nat × Int → Int := fun x =>
    if (if Before dist C p x.1 (first dist p + u) then (C x.1).2 else P x.1) = (C (first dist p + u)).2 then x.2
    else if (if Before dist C p x.1 (first dist p + u) then (C x.1).2 else P x.1) = P (first dist p + u) then -x.2 else 0
  have hterm : l.map (gainTerm part cand u) = ((inp p).neighbours u).map t := by
    have h1 : l.mapM (fun x => some (gainTerm part cand u x)) = some (((inp p).neighbours u).map t) := by
      refine mapM_comp hm fun x y _ hxy => ?_
      obtain ⟨v, hv, rfl⟩ := Option.map_eq_some_iff.1 hxy
      have hproj : projectedBlock part cand u x.1 = if Before dist C p v (first dist p + u) then (C v).2 else P v := by
        unfold projectedBlock
        rw [hcand x.1 v hv, hcand u _ hown, hpart x.1 v hv]
        have hiff : x.1 < u ↔ (first dist p ≤ v ∧ v < first dist (p + 1)) ∧ v < first dist p + u := by
          rcases (W.node hp hv).2 with ⟨_, h5, h6, h7⟩ | ⟨_, h5, h6, q, _, h7, h8⟩
          · have := ((W.valid p hp).owns_iff' hp).1 h7
            omega
          · constructor
            · intro h; omega
            · rintro ⟨h, _⟩
              exact absurd ((W.valid p hp).owns_unique (((W.valid p hp).owns_iff' hp).2 h) h7) (Ne.symm h8)
        refine if_congr ?_ rfl rfl
        unfold Before
        rw [hiff]
      congr 1
      unfold gainTerm
      rw [hproj, hcand u _ hown, hpart u _ hown]
    rw [mapM_some (g := gainTerm part cand u) fun _ _ => rfl] at h1
    injection h1
  unfold filterNode?
  rw [hpart u _ hown, hcand u _ hown, hl, Option.bind_some, hterm]
  by_cases h : P (first dist p + u) = (C (first dist p + u)).2
  · rw [if_pos h]
    congr 1
    symm
    rw [decide_eq_false_iff_not]
    exact fun hm => hm.1 h
  · rw [if_neg h, add_fold_abs]
    · rw [Int.zero_add, Option.map_some]
      congr 1
      apply decide_eq_decide.2
      exact ⟨fun h' => ⟨h, h'⟩, fun h' => h'.2⟩
    · rw [abs_zero, Int.zero_add, List.map_map]
      refine Int.lt_of_le_of_lt (sum_map_le (ψ := fun x => |x.2|) fun x _ => ?_) hfit
      show |t x| ≤ |x.2|
      by_cases h1 : (if Before dist C p x.1 (first dist p + u) then (C x.1).2 else P x.1) = (C (first dist p + u)).2
      · rw [show t x = x.2 from if_pos h1]
      · by_cases h2 : (if Before dist C p x.1 (first dist p + u) then (C x.1).2 else P x.1) = P (first dist p + u)
        · rw [show t x = -x.2 from (if_neg h1).trans (if_pos h2), abs_neg]
        · rw [show t x = 0 from (if_neg h1).trans (if_neg h2), abs_zero]
          exact abs_nonneg _

/-! ## The property -/

/-- The loops of an iteration are executed as parallel loops over the nodes of each process. -/
structure JetSchedule.Ok (dist : List Nat) (sch : JetSchedule) : Prop where
  candidates : Executions dist (fun _ => 0) (localN dist) sch.candidates
  shuffle : ∀ l, (sch.shuffle l).Perm l
  order : ∀ p, p < procs dist → (sch.order p).Perm (List.range (localN dist p))
  labels : Executions dist (fun _ => 0) (localN dist) sch.labels
  shuffle' : ∀ l, (sch.shuffle' l).Perm l

/-- **C67**, an iteration: if all processes agree on a partition, they agree on the partition after the iteration as well, whatever
their threads do and whatever the gain calculator returns.  The new partition differs from the old one in the nodes that `Moves`
describes, and a node that was moved in the last iteration is not among them. -/
theorem C67_iteration (W : World dist inp g) (hsym : Symmetric dist inp) (k : Nat) (Wt : Nat → Int) (hW : HasWeights dist inp Wt)
    (P : Nat → Nat) (hP : ∀ a, a < globalN dist → P a < k) (moved : Nat → Bool) (s : JetState)
    (hs : Agree dist g Wt k s.part s.weights P)
    (hlock : ∀ p, p < procs dist → ∀ u, u < localN dist p → s.locked p u = moved (first dist p + u))
    (best : Nat → Int × Nat) (hbest : ∀ a, a < globalN dist → (best a).2 < k) (accept : Nat → Bool)
    (hfit : ∀ p, p < procs dist → ∀ u, u < localN dist p → (((inp p).neighbours u).map fun x => |x.2|).sum < 2 ^ 31)
    (sch : JetSchedule) (hsch : sch.Ok dist) :
    ∃ s' P', jetIteration? (procs dist) k g sch (fun p u => best (first dist p + u)) (fun p u => accept (first dist p + u)) s = some s' ∧
      Agree dist g Wt k s'.part s'.weights P' ∧
      ∀ p, p < procs dist → ∀ u, u < localN dist p →
        (P' (first dist p + u) = if Moves dist inp P (candidate P moved best accept) p u then (best (first dist p + u)).2
          else P (first dist p + u)) ∧
        s'.locked p u = decide (Moves dist inp P (candidate P moved best accept) p u) ∧
        (moved (first dist p + u) = true → ¬ Moves dist inp P (candidate P moved best accept) p u) := by
  have hpart : ∀ p, p < procs dist → ∀ l v, (g p).localToGlobal? l = some v → s.part p l = P v := fun p hp => (hs p hp).1
  obtain ⟨cand, hc1, hc2⟩ := candidates_ok W hsym sch hpart hlock hsch.candidates hsch.shuffle best accept
  generalize hC : candidate P moved best accept = C at hc2
  have hCk : ∀ a, a < globalN dist → (C a).2 < k := by
    intro a ha
    rw [← hC]
    unfold candidate
    by_cases h1 : moved a = true
    · rw [if_pos h1]; exact hP a ha
    · rw [if_neg h1]
      by_cases h2 : (best a).2 ≠ P a ∧ accept a = true
      · rw [if_pos h2]; exact hbest a ha
      · rw [if_neg h2]; exact hP a ha
  have hCm : ∀ a, (C a).2 ≠ P a → (C a).2 = (best a).2 ∧ ¬ moved a = true := by
    intro a h
    rw [← hC] at h ⊢
    unfold candidate at h ⊢
    by_cases h1 : moved a = true
    · rw [if_pos h1] at h; exact absurd rfl h
    · rw [if_neg h1] at h ⊢
      by_cases h2 : (best a).2 ≠ P a ∧ accept a = true
      · rw [if_pos h2]; exact ⟨rfl, h1⟩
      · rw [if_neg h2] at h; exact absurd rfl h
  obtain ⟨locked, hf1, hf2⟩ := forAll_ok (fun _ => false) (f := fun p => filterMoves? (g p) (s.part p) (cand p))
    (Q := fun p f => ∀ u, u < localN dist p → f u = decide (Moves dist inp P C p u)) (N := procs dist) (by
      intro p hp
      refine ⟨fun u => ((List.range (g p).n).map fun u => decide (Moves dist inp P C p u)).getD u false, ?_, fun u hu => ?_⟩
      · unfold filterMoves?
        rw [mapM_some (g := fun u => decide (Moves dist inp P C p u))]
        · rfl
        · intro u hu
          have hu : u < localN dist p := by
            rw [← (W.represents p hp).n_eq]; exact List.mem_range.1 hu
          exact filterNode_ok W hp (hpart p hp) (hc2 p hp) hu (hfit p hp u hu)
      · have : u < (g p).n := by rw [(W.represents p hp).n_eq]; exact hu
        simp [this])
  have hord : ∀ p, p < procs dist → ∀ u, u ∈ sch.order p → u < localN dist p := fun p hp u hu =>
    List.mem_range.1 ((hsch.order p hp).mem_iff.1 hu)
  obtain ⟨mv, hm1, hm2⟩ := forAll_ok ((fun _ => 0 : Nat → Nat), (fun _ => 0 : Nat → Int))
    (f := fun p => moveLocked? (g p) k (locked p) (cand p) (sch.order p) (s.part p)) (N := procs dist)
    (Q := fun p r => (∀ l, r.1 l = if l < localN dist p ∧ locked p l = true then (cand p l).2 else s.part p l) ∧
      ∀ b, r.2 b = ((List.range (localN dist p)).map fun u => if Moves dist inp P C p u then
        (if (C (first dist p + u)).2 = b then Wt (first dist p + u) else 0) -
          (if P (first dist p + u) = b then Wt (first dist p + u) else 0) else 0).sum) (by
      intro p hp
      have hown := fun u hu => (W.represents p hp).own u hu
      obtain ⟨r, h1, h2, h3⟩ := moveLocked_ok (gr := g p) (k := k) (locked := locked p) (cand := cand p)
        (w := fun u => Wt (first dist p + u)) (part := s.part p) (sch.order p) (s.part p, fun _ => 0)
        ((hsch.order p hp).nodup_iff.2 List.nodup_range)
        (fun u hu => by rw [(W.represents p hp).node_weight u (hord p hp u hu), hW p hp u (hord p hp u hu)])
        (fun u hu => rfl)
        (fun u hu => by rw [hpart p hp u _ (hown u (hord p hp u hu))]; exact hP _ (owned_lt W hp (hord p hp u hu)))
        (fun u hu _ => by rw [hc2 p hp u _ (hown u (hord p hp u hu))]; exact hCk _ (owned_lt W hp (hord p hp u hu)))
      refine ⟨r, h1, fun l => ?_, fun b => ?_⟩
      · rw [h2 l]
        have : l ∈ sch.order p ↔ l < localN dist p := by rw [(hsch.order p hp).mem_iff, List.mem_range]
        exact if_congr (and_congr_left' this) rfl rfl
      · rw [h3 b]
        show (0 : Int) + _ = _
        rw [Int.zero_add, ((hsch.order p hp).map _).sum_eq]
        congr 1
        apply List.map_congr_left
        intro u hu
        have hu := List.mem_range.1 hu
        rw [hf2 p hp u hu, hc2 p hp u _ (hown u hu), hpart p hp u _ (hown u hu)]
        simp only [decide_eq_true_iff])
  classical
  let P' : Nat → Nat := fun a => if ∃ p, Owns dist p a ∧ Moves dist inp P C p (a - first dist p) then (C a).2 else P a
  have hP' : ∀ p, p < procs dist → ∀ u, u < localN dist p → P' (first dist p + u) =
      if Moves dist inp P C p u then (C (first dist p + u)).2 else P (first dist p + u) := by
    intro p hp u hu
    have V := W.valid p hp
    have hO : Owns dist p (first dist p + u) := by rw [V.owns_iff' hp]; unfold localN at hu; omega
    show (if ∃ q, _ then _ else _) = _
    by_cases h : Moves dist inp P C p u
    · rw [if_pos h, if_pos ⟨p, hO, by rw [Nat.add_sub_cancel_left]; exact h⟩]
    · rw [if_neg h, if_neg]
      rintro ⟨q, h1, h2⟩
      have := V.owns_unique h1 hO
      subst this
      rw [Nat.add_sub_cancel_left] at h2
      exact h h2
  have hmoved : ∀ p, p < procs dist → ∀ u, u < localN dist p → (mv p).1 u = P' (first dist p + u) := by
    intro p hp u hu
    have hown := (W.represents p hp).own u hu
    rw [(hm2 p hp).1 u, hP' p hp u hu, hf2 p hp u hu, hc2 p hp u _ hown, hpart p hp u _ hown]
    by_cases h : Moves dist inp P C p u
    · rw [if_pos h, if_pos ⟨hu, decide_eq_true h⟩]
    · rw [if_neg h, if_neg]
      rintro ⟨_, h'⟩
      exact h (of_decide_eq_true h')
  obtain ⟨part', hl1, hl2⟩ := forAll_ok (fun _ => 0 : Nat → Nat)
    (f := fun me => syncFiltered? (procs dist) (0, 0) g sch.labels locked (fun p => (mv p).1) (g me).totalN sch.shuffle' me (mv me).1)
    (N := procs dist) (Q := fun p arr => ∀ l v, (g p).localToGlobal? l = some v → arr l = P' v) (by
      intro me hme
      obtain ⟨arr, h1, h2⟩ := C65_filtered_synchronization W hsym (0, 0) sch.labels hsch.labels locked (fun p => (mv p).1)
        sch.shuffle' hsch.shuffle' me hme (g me).totalN (Nat.le_refl _) (mv me).1
      refine ⟨arr, h1, fun l v hl => ?_⟩
      rcases (W.node hme hl).2 with ⟨_, h5, h6, h7⟩ | ⟨_, h5, h6, q, _, h7, h8⟩
      · rw [h2 l v me hl h7, if_neg fun h => h.1 rfl, hmoved me hme l h5, h6]
      · have hq := h7.lt
        have hb := ((W.valid me hme).owns_iff' hq).1 h7
        have hloc : v - first dist q < localN dist q := by unfold localN; omega
        have hv : first dist q + (v - first dist q) = v := by omega
        rw [h2 l v q hl h7, hmoved q hq _ hloc, hv]
        by_cases hlk : locked q (v - first dist q) = true
        · rw [if_pos ⟨h8, hlk⟩]
        · rw [if_neg fun h => hlk h.2, (hm2 me hme).1 l, if_neg fun h => absurd h.1 (by omega), hpart me hme l v hl]
          have := hP' q hq _ hloc
          rw [hv] at this
          rw [this, if_neg]
          intro h
          rw [hf2 q hq _ hloc] at hlk
          exact hlk (decide_eq_true h))
  refine ⟨⟨part', fun p => applyDeltas (procs dist) (fun q => (mv q).2) (s.weights p), locked⟩, P', ?_, ?_, ?_⟩
  · unfold jetIteration?
    rw [hc1, Option.bind_some, hf1, Option.bind_some, hm1, Option.bind_some]
    unfold jetLabels?
    rw [hl1]
    rfl
  · intro p hp
    refine ⟨hl2 p hp, fun b hb => ?_⟩
    show s.weights p b + ((List.range (procs dist)).map fun q => (mv q).2 b).sum = _
    rw [(hs p hp).2 b hb]
    have h1 : ∀ q, q < procs dist → (mv q).2 b + ((List.range (localN dist q)).map fun u =>
        if decide (P (first dist q + u) = b) = true then Wt (first dist q + u) else 0).sum =
        ((List.range (localN dist q)).map fun u =>
          if decide (P' (first dist q + u) = b) = true then Wt (first dist q + u) else 0).sum := by
      intro q hq
      rw [(hm2 q hq).2 b, ← sum_map_add]
      congr 1
      apply List.map_congr_left
      intro u hu
      rw [hP' q hq u (List.mem_range.1 hu)]
      simp only [decide_eq_true_iff]
      by_cases h : Moves dist inp P C q u
      · rw [if_pos h, if_pos h]; omega
      · rw [if_neg h, if_neg h, Int.zero_add]
    have h2 : ∀ Q : Nat → Nat, blockWeight dist Wt Q b = ((List.range (procs dist)).map fun q => ((List.range (localN dist q)).map fun u =>
        if decide (Q (first dist q + u) = b) = true then Wt (first dist q + u) else 0).sum).sum := by
      intro Q
      unfold blockWeight
      rw [sum_filter_map, ← W.tile]
    rw [h2 P, h2 P', Int.add_comm, ← sum_map_add]
    congr 1
    apply List.map_congr_left
    intro q hq
    exact h1 q (List.mem_range.1 hq)
  · intro p hp u hu
    refine ⟨?_, hf2 p hp u hu, fun h1 h2 => (hCm _ (Ne.symm h2.1)).2 h1⟩
    rw [hP' p hp u hu]
    by_cases h : Moves dist inp P C p u
    · rw [if_pos h, if_pos h, (hCm _ (Ne.symm h.1)).1]
    · rw [if_neg h, if_neg h]

theorem narrow_id {c : Int} (h0 : 0 ≤ c) (h1 : c < 2 ^ 31) : narrow c = c := by
  unfold narrow
  rw [Int.bmod_eq_of_le] <;> omega

theorem update_better {totalN k : Nat} {part : Nat → Nat} {weights : Nat → Int} {cut l1 : Int} {t : Shooter}
    (h : (t.bestL1 > 0 ∧ l1 < t.bestL1) ∨ (l1 = 0 ∧ narrow cut ≤ t.bestCut)) :
    t.update totalN k part weights cut l1 =
      { t.copy totalN k part weights with bestCut := narrow cut, bestL1 := l1, lastIsBest := true } := if_pos h

theorem update_worse {totalN k : Nat} {part : Nat → Nat} {weights : Nat → Int} {cut l1 : Int} {t : Shooter}
    (h : ¬ ((t.bestL1 > 0 ∧ l1 < t.bestL1) ∨ (l1 = 0 ∧ narrow cut ≤ t.bestCut))) :
    t.update totalN k part weights cut l1 = { t with lastIsBest := false } := if_neg h

/-- After the updates with the first `m` partitions, the snapshot is that of a best one. -/
theorem shooter_ok (k : Nat) (cut l1 : Nat → Int) (hl1 : ∀ i, 0 ≤ l1 i) {M : Nat} (hcut : ∀ i, i ≤ M → 0 ≤ cut i ∧ cut i < 2 ^ 31) : ∀ m, m ≤ M →
    ∃ j, j ≤ m ∧ (∀ i, i ≤ m → l1 j ≤ l1 i) ∧ (∀ i, i ≤ m → l1 i = 0 → cut j ≤ cut i) ∧
      ∀ (totalN : Nat) (part : Nat → Nat → Nat) (weights : Nat → Nat → Int) (s0 : Shooter),
        let s := (List.range m).foldl (fun (s : Shooter) i => s.update totalN k (part (i + 1)) (weights (i + 1)) (cut (i + 1)) (l1 (i + 1)))
          (s0.init totalN k (part 0) (weights 0) (cut 0) (l1 0))
        s.bestCut = cut j ∧ s.bestL1 = l1 j ∧ (∀ l, l < totalN → s.bestPart l = part j l) ∧
          (∀ b, b < k → s.bestWeights b = weights j b) ∧ (s.lastIsBest = true → j = m)
  | 0, _ => ⟨0, Nat.le_refl _, fun i hi => by rw [Nat.le_zero.1 hi], fun i hi _ => by rw [Nat.le_zero.1 hi],
      fun totalN part weights s0 => ⟨narrow_id (hcut 0 (Nat.zero_le _)).1 (hcut 0 (Nat.zero_le _)).2, rfl, fun l hl => if_pos hl,
        fun b hb => if_pos hb, fun _ => rfl⟩⟩
  | m + 1, hm => by
    obtain ⟨j, h1, h2, h3, h4⟩ := shooter_ok k cut l1 hl1 hcut m (by omega)
    have hn := narrow_id (hcut (m + 1) hm).1 (hcut (m + 1) hm).2
    have h0 := hl1 j
    have h0' := hl1 (m + 1)
    by_cases hc : (l1 j > 0 ∧ l1 (m + 1) < l1 j) ∨ (l1 (m + 1) = 0 ∧ cut (m + 1) ≤ cut j)
    · refine ⟨m + 1, Nat.le_refl _, fun i hi => ?_, fun i hi hz => ?_, fun totalN part weights s0 => ?_⟩
      · by_cases h : i = m + 1
        · rw [h]
        · have := h2 i (by omega)
          omega
      · by_cases h : i = m + 1
        · rw [h]
        · have := h3 i (by omega) hz
          have := h2 i (by omega)
          omega
      · obtain ⟨e1, e2, e3, e4, e5⟩ := h4 totalN part weights s0
        intro s
        have hs : s = Shooter.update totalN k (part (m + 1)) (weights (m + 1)) (cut (m + 1)) (l1 (m + 1))
            ((List.range m).foldl (fun (s : Shooter) i => s.update totalN k (part (i + 1)) (weights (i + 1)) (cut (i + 1)) (l1 (i + 1)))
              (s0.init totalN k (part 0) (weights 0) (cut 0) (l1 0))) := by
          show (List.range (m + 1)).foldl _ _ = _
          rw [List.range_succ, List.foldl_append]
          rfl
        rw [update_better (by rw [e1, e2, hn]; exact hc)] at hs
        rw [hs]
        exact ⟨hn, rfl, fun l hl => if_pos hl, fun b hb => if_pos hb, fun _ => rfl⟩
    · refine ⟨j, by omega, fun i hi => ?_, fun i hi hz => ?_, fun totalN part weights s0 => ?_⟩
      · by_cases h : i = m + 1
        · rw [h]; omega
        · exact h2 i (by omega)
      · by_cases h : i = m + 1
        · rw [h] at hz ⊢
          omega
        · exact h3 i (by omega) hz
      · obtain ⟨e1, e2, e3, e4, e5⟩ := h4 totalN part weights s0
        intro s
        have hs : s = Shooter.update totalN k (part (m + 1)) (weights (m + 1)) (cut (m + 1)) (l1 (m + 1))
            ((List.range m).foldl (fun (s : Shooter) i => s.update totalN k (part (i + 1)) (weights (i + 1)) (cut (i + 1)) (l1 (i + 1)))
              (s0.init totalN k (part 0) (weights 0) (cut 0) (l1 0))) := by
          show (List.range (m + 1)).foldl _ _ = _
          rw [List.range_succ, List.foldl_append]
          rfl
        rw [update_worse (by rw [e1, e2, hn]; exact hc)] at hs
        rw [hs]
        exact ⟨e1, e2, e3, e4, fun h => by cases h⟩

theorem imbalanceL1_nonneg (weights limits : List Int) : 0 ≤ imbalanceL1 weights limits := by
  rw [C66_overload]
  refine sum_nonneg fun x hx => ?_
  obtain ⟨b, _, rfl⟩ := List.mem_map.1 hx
  exact Int.le_max_left _ _

/-- **C67**, a round: let `P 0, …, P m` be the partitions at the beginning and after the iterations, on which all processes agreed.
If the cuts fit into 32 bits (default build), all processes end the round with the same one of these partitions, with its block
weights.  It has the smallest overload of all of them, and the smallest cut if some of them satisfy the limits. -/
theorem C67_round_partial (k m : Nat) (Wt : Nat → Int) (limits : List Int) (P : Nat → Nat → Nat)
    (part : Nat → Nat → Nat → Nat) (weights : Nat → Nat → Nat → Int)
    (hag : ∀ i, i ≤ m → Agree dist g Wt k (part i) (weights i) (P i))
    (hcut : ∀ i, i ≤ m → 0 ≤ cut dist inp (P i) ∧ cut dist inp (P i) < 2 ^ 31) (shooter : Nat → Shooter) :
    ∃ j, j ≤ m ∧
      Agree dist g Wt k
        (fun p => (jetRound (g p).totalN k m (fun i => part i p) (fun i => weights i p) (fun i => cut dist inp (P i))
          (fun i => imbalanceL1 ((List.range k).map (blockWeight dist Wt (P i))) limits) (shooter p)).1)
        (fun p => (jetRound (g p).totalN k m (fun i => part i p) (fun i => weights i p) (fun i => cut dist inp (P i))
          (fun i => imbalanceL1 ((List.range k).map (blockWeight dist Wt (P i))) limits) (shooter p)).2) (P j) ∧
      (∀ i, i ≤ m → imbalanceL1 ((List.range k).map (blockWeight dist Wt (P j))) limits ≤
        imbalanceL1 ((List.range k).map (blockWeight dist Wt (P i))) limits) ∧
      ∀ i, i ≤ m → imbalanceL1 ((List.range k).map (blockWeight dist Wt (P i))) limits = 0 →
        cut dist inp (P j) ≤ cut dist inp (P i) := by
  obtain ⟨j, h1, h2, h3, h4⟩ := shooter_ok k (fun i => cut dist inp (P i))
    (fun i => imbalanceL1 ((List.range k).map (blockWeight dist Wt (P i))) limits) (fun i => imbalanceL1_nonneg _ _) hcut m (Nat.le_refl _)
  refine ⟨j, h1, fun p hp => ?_, h2, h3⟩
  obtain ⟨_, _, e3, e4, e5⟩ := h4 (g p).totalN (fun i => part i p) (fun i => weights i p) (shooter p)
  have a := hag j h1 p hp
  have key : ∀ t : Shooter, (∀ l, l < (g p).totalN → t.bestPart l = part j p l) → (∀ b, b < k → t.bestWeights b = weights j p b) →
      (t.lastIsBest = true → j = m) →
      (∀ l v, (g p).localToGlobal? l = some v → (t.rollback (g p).totalN k (part m p) (weights m p)).1 l = P j v) ∧
        ∀ b, b < k → (t.rollback (g p).totalN k (part m p) (weights m p)).2 b = blockWeight dist Wt (P j) b := by
    intro t e3 e4 e5
    unfold Shooter.rollback
    by_cases hb : t.lastIsBest = true
    · rw [if_pos hb]
      have hj := e5 hb
      subst hj
      exact a
    · rw [if_neg hb]
      refine ⟨fun l v hl => ?_, fun b hb => ?_⟩
      · show (if l < (g p).totalN then _ else _) = _
        rw [if_pos (lt_total hl), e3 l (lt_total hl)]
        exact a.1 l v hl
      · show (if b < k then _ else _) = _
        rw [if_pos hb, e4 b hb]
        exact a.2 b hb
  exact key _ e3 e4 e5

/-- **C67**, a round with a large cut: cuts are compared after a conversion to 32 bits.  If the first partition satisfies the limits
and has a cut below 2^31, and an iteration leads to a partition with a cut between 2^31 and 2^32 that satisfies the limits, the round
returns the worse partition. -/
theorem C67_round_truncated (k totalN : Nat) (part : Nat → Nat → Nat) (weights : Nat → Nat → Int) (c : Nat → Int)
    (h0 : 0 ≤ c 0 ∧ c 0 < 2 ^ 31) (h1 : 2 ^ 31 ≤ c 1 ∧ c 1 < 2 ^ 32) (s : Shooter) :
    jetRound totalN k 1 part weights c (fun _ => 0) s = (part 1, weights 1) := by
  have e0 := narrow_id h0.1 h0.2
  have e1 : narrow (c 1) ≤ c 0 := by
    unfold narrow
    rw [Int.bmod_def]
    split <;> omega
  show Shooter.rollback totalN k (part 1) (weights 1) (Shooter.update totalN k (part 1) (weights 1) (c 1) 0
    (s.init totalN k (part 0) (weights 0) (c 0) 0)) = _
  unfold Shooter.update
  rw [if_pos (Or.inr ⟨rfl, by
    show narrow (c 1) ≤ narrow (c 0)
    rw [e0]; exact e1⟩)]
  unfold Shooter.rollback
  exact if_pos rfl

/-! ## Examples -/

/-- A schedule of the three processes of the example. -/
theorem jetSchedule3 : ∃ sch : JetSchedule, sch.Ok dist3 := by
  obtain ⟨ex, h1, _⟩ := executions3
  exact ⟨⟨ex, List.reverse, fun p => List.range (localN dist3 p), ex, id⟩, h1, fun l => List.reverse_perm l,
    fun p _ => List.Perm.refl _, h1, fun l => List.Perm.refl l⟩

/-- The state in which the processes know the partition of the example. -/
def jetState (g : Nat → DGraph) (Wt : Nat → Int) (P : Nat → Nat) : JetState :=
  ⟨fun p l => P (((g p).localToGlobal? l).getD 0), fun _ => blockWeight dist3 Wt P, fun _ _ => false⟩

/-- The hypotheses of `C67_iteration` can be met. -/
example : ∃ (g : Nat → DGraph) (sch : JetSchedule), World dist3 inp3 g ∧ sch.Ok dist3 ∧ HasWeights dist3 inp3 (fun a => a + 5) ∧
    Agree dist3 g (fun a => a + 5) 2 (jetState g (fun a => a + 5) P3).part (jetState g (fun a => a + 5) P3).weights P3 ∧
    (∀ a, a < globalN dist3 → P3 a < 2) ∧
    ∀ p, p < procs dist3 → ∀ u, u < localN dist3 p → (((inp3 p).neighbours u).map fun x => |x.2|).sum < 2 ^ 31 := by
  obtain ⟨g, hg⟩ := world3
  obtain ⟨sch, hs⟩ := jetSchedule3
  refine ⟨g, sch, hg, hs, ?_, ?_, by decide, by decide⟩
  · unfold HasWeights
    decide
  · intro p hp
    refine ⟨fun l v hl => ?_, fun b _ => rfl⟩
    show P3 (((g p).localToGlobal? l).getD 0) = _
    rw [hl]
    rfl

/-- Node 0 moves to block 1 and gets the cut down from 12 to 3. -/
example : ((jetIteration? 3 2 g3 ⟨ex3, List.reverse, fun p => if p = 0 then [2, 0, 1] else if p = 1 then [] else [1, 0], ex3, id⟩
      (fun p u => if p = 0 ∧ u = 0 then (9, 1) else (0, 0)) (fun p u => decide (p = 0 ∧ u = 0))
      (jetState g3 (fun a => a + 5) P3)).map fun s =>
    ((List.range 5).map (s.part 0), (List.range 4).map (s.part 2), (List.range 2).map (s.weights 0), (List.range 2).map (s.weights 2),
      (List.range 3).map (s.locked 0))) =
    some ([1, 0, 1, 1, 1], [1, 1, 1, 1], [6, 29], [6, 29], [true, false, false]) := by decide +kernel

example : cut dist3 inp3 (fun a => if a = 1 then 0 else 1) = 3 := by decide +kernel

/-- Neighbours with the same gain on different processes: nodes 0 and 2 swap their blocks, and the cut grows from 2 to 6, although the
expected gains of both are not negative. -/
def inpTie : Nat → Input := fun p => if p = 0 then ⟨[0, 2, 3], [1, 2, 0], [], [2, 2, 2]⟩ else ⟨[0, 2, 3], [0, 3, 2], [], [2, 2, 2]⟩

example : let P : Nat → Nat := fun a => if a < 2 then 0 else 1
    let C : Nat → Int × Nat := fun a => if a = 0 then (0, 1) else if a = 2 then (0, 0) else (0, P a)
    Moves [0, 2, 4] inpTie P C 0 0 ∧ Moves [0, 2, 4] inpTie P C 1 0 ∧ cut [0, 2, 4] inpTie P = 2 ∧
      cut [0, 2, 4] inpTie (fun a => if a = 0 ∨ a = 3 then 1 else 0) = 6 := by
  decide +kernel

/-- On one process with the same graph, only node 0 moves. -/
example : let P : Nat → Nat := fun a => if a < 2 then 0 else 1
    let C : Nat → Int × Nat := fun a => if a = 0 then (0, 1) else if a = 2 then (0, 0) else (0, P a)
    let inp : Nat → Input := fun _ => ⟨[0, 2, 3, 5, 6], [1, 2, 0, 0, 3, 2], [], [2, 2, 2, 2, 2, 2]⟩
    Moves [0, 4] inp P C 0 0 ∧ ¬ Moves [0, 4] inp P C 0 2 ∧
      cut [0, 4] inp (fun a => if a = 1 then 0 else 1) = 2 := by
  decide +kernel

/-- A round with cuts 12, 3 and 7, all within the limits, returns the second partition; with an overload in the second it returns the
third. -/
example : ((jetRound 1 1 2 (fun i _ => i) (fun i _ => i) (fun i => if i = 0 then 12 else if i = 1 then 3 else 7) (fun _ => 0)
      ⟨fun _ => 9, fun _ => 9, 0, 0, false⟩).1 0 = 1) ∧
    ((jetRound 1 1 2 (fun i _ => i) (fun i _ => i) (fun i => if i = 0 then 12 else if i = 1 then 3 else 7) (fun i => if i = 1 then 1 else 0)
      ⟨fun _ => 9, fun _ => 9, 0, 0, false⟩).1 0 = 2) := by decide +kernel

/-- All processes agree on both partitions, and the cuts fit. -/
example : ∃ g, World dist3 inp3 g ∧ ∀ i, i ≤ 1 →
    Agree dist3 g (fun a => a + 5) 2 (jetState g (fun a => a + 5) (fun a => if i = 0 then P3 a else if a = 1 then 0 else 1)).part
      (fun _ => blockWeight dist3 (fun a => a + 5) (fun a => if i = 0 then P3 a else if a = 1 then 0 else 1))
      (fun a => if i = 0 then P3 a else if a = 1 then 0 else 1) ∧
    0 ≤ cut dist3 inp3 (fun a => if i = 0 then P3 a else if a = 1 then 0 else 1) ∧
    cut dist3 inp3 (fun a => if i = 0 then P3 a else if a = 1 then 0 else 1) < 2 ^ 31 := by
  obtain ⟨g, hg⟩ := world3
  refine ⟨g, hg, fun i hi => ⟨fun p hp => ⟨fun l v hl => ?_, fun b _ => rfl⟩, ?_⟩⟩
  · show (fun a => if i = 0 then P3 a else if a = 1 then 0 else 1) (((g p).localToGlobal? l).getD 0) = _
    rw [hl]
    rfl
  · have h : i = 0 ∨ i = 1 := by omega
    rcases h with rfl | rfl <;> decide +kernel

end Verif.Dist
