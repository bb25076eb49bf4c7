import Verif.Dist.ContractGhosts

/-!
# Collecting the edges of a coarse node, for the proof of C73
-/

namespace Verif.Dist
open Verif.Math

/-! ## Runs in a sorted list -/

theorem sorted_index {k : Nat} : ∀ {l : List GEdge}, (l.Pairwise fun a b => a.1 ≤ b.1) → ∀ i, i < l.length →
    ((l.getD i (0, 0, 0)).1 < k ↔ i < l.countP fun e => decide (e.1 < k))
  | [], _, i, hi => absurd hi (Nat.not_lt_zero i)
  | e :: l, h, i, hi => by
    obtain ⟨h1, h2⟩ := List.pairwise_cons.1 h
    by_cases he : e.1 < k
    · rw [List.countP_cons_of_pos (by simpa using he)]
      cases i with
      | zero => exact ⟨fun _ => Nat.succ_pos _, fun _ => he⟩
      | succ i =>
        have := sorted_index (k := k) h2 i (by simpa using hi)
        rw [List.getD_cons_succ, this]
        omega
    · have h0 : l.countP (fun e => decide (e.1 < k)) = 0 := List.countP_eq_zero.2 fun x hx => by
        have := h1 x hx
        simpa using (show k ≤ x.1 by omega)
      rw [List.countP_cons_of_neg (by simpa using he), h0]
      refine ⟨fun h => absurd h ?_, fun h => absurd h (Nat.not_lt_zero _)⟩
      cases i with
      | zero => exact he
      | succ i =>
        have hi : i < l.length := by simpa using hi
        rw [List.getD_cons_succ, List.getD_eq_getElem?_getD, List.getElem?_eq_getElem hi]
        have := h1 l[i] (List.getElem_mem hi)
        show ¬ l[i].1 < k
        omega

theorem filter_range_eq {a : Nat} : ∀ m, (List.range m).filter (fun i => decide (i = a)) = if a < m then [a] else []
  | 0 => rfl
  | m + 1 => by
    rw [List.range_succ, List.filter_append, filter_range_eq m]
    by_cases h1 : a < m
    · rw [if_pos h1, if_pos (by omega), List.filter_cons_of_neg (by simp; omega)]; rfl
    · by_cases h2 : m = a
      · rw [if_neg h1, if_pos (by omega), List.filter_cons_of_pos (by simpa using h2), h2]; rfl
      · rw [if_neg h1, if_neg (by omega), List.filter_cons_of_neg (by simpa using h2)]; rfl

theorem takeWhile_run {k : Nat} : ∀ {l : List GEdge}, (l.Pairwise fun a b => a.1 ≤ b.1) → (∀ e, e ∈ l → k ≤ e.1) →
    l.takeWhile (fun e => decide (e.1 = k)) = l.filter fun e => decide (e.1 = k)
  | [], _, _ => rfl
  | e :: l, h, hk => by
    obtain ⟨h1, h2⟩ := List.pairwise_cons.1 h
    by_cases he : e.1 = k
    · rw [List.takeWhile_cons_of_pos (by simpa using he), List.filter_cons_of_pos (by simpa using he),
        takeWhile_run h2 fun x hx => hk x (List.mem_cons_of_mem _ hx)]
    · rw [List.takeWhile_cons_of_neg (by simpa using he), List.filter_cons_of_neg (by simpa using he)]
      refine Eq.symm (List.filter_eq_nil_iff.2 fun x hx hc => ?_)
      have := h1 x hx
      have h3 := hk e List.mem_cons_self
      have := of_decide_eq_true hc
      omega

theorem countP_eq_split (k : Nat) : ∀ l : List GEdge, l.countP (fun e => decide (e.1 < k + 1)) =
    l.countP (fun e => decide (e.1 < k)) + (l.filter fun e => decide (e.1 = k)).length
  | [] => rfl
  | e :: l => by
    rw [List.countP_cons, List.countP_cons, countP_eq_split k l, List.filter_cons]
    by_cases h1 : e.1 < k
    · rw [if_pos (by simp; omega), if_pos (by simpa using h1), if_neg (by simp; omega)]; omega
    · by_cases h2 : e.1 = k
      · rw [if_pos (by simp; omega), if_neg (by simpa using h1), if_pos (by simpa using h2), List.length_cons]; omega
      · rw [if_neg (by simp; omega), if_neg (by simpa using h1), if_neg (by simpa using h2)]; omega

/-- The bucket of a coarse node names the first of its received edges. -/
theorem bucketEdges_ok {n k : Nat} {es : List GEdge} (hs : es.Pairwise fun a b => a.1 ≤ b.1) :
    (bucketEdges n es k = [] ∧ es.filter (fun e => decide (e.1 = k)) = []) ∨
    ∃ i, i < es.length ∧ bucketEdges n es k = [(n + i) % 2 ^ 32] ∧
      (es.drop i).takeWhile (fun e => decide (e.1 = k)) = es.filter fun e => decide (e.1 = k) := by
  have ha := sorted_index (k := k) hs
  have hb := sorted_index (k := k + 1) hs
  have hsum := countP_eq_split k es
  have hle : es.countP (fun e => decide (e.1 < k + 1)) ≤ es.length := List.countP_le_length
  have hf : (List.range es.length).filter (fun i => decide ((es.getD i (0, 0, 0)).1 = k ∧ (i = 0 ∨ (es.getD i (0, 0, 0)).1 ≠ (es.getD (i - 1) (0, 0, 0)).1))) =
      (List.range es.length).filter fun i => decide (i = es.countP (fun e => decide (e.1 < k)) ∧ (es.filter fun e => decide (e.1 = k)) ≠ []) := by
    refine List.filter_congr fun i hi => ?_
    have hi := List.mem_range.1 hi
    rw [decide_eq_decide]
    have h1 := ha i hi
    have h2 := hb i hi
    have h3 := ha (i - 1) (by omega)
    have h4 := hb (i - 1) (by omega)
    have h5 : (es.filter fun e => decide (e.1 = k)) ≠ [] ↔ 0 < (es.filter fun e => decide (e.1 = k)).length := List.length_pos_iff.symm
    rw [h5]
    generalize (es.getD i (0, 0, 0)).1 = x at h1 h2 ⊢
    generalize (es.getD (i - 1) (0, 0, 0)).1 = y at h3 h4 ⊢
    generalize (es.countP fun e => decide (e.1 < k)) = a at *
    generalize (es.countP fun e => decide (e.1 < k + 1)) = b at *
    generalize (es.filter fun e => decide (e.1 = k)).length = c at *
    omega
  unfold bucketEdges
  rw [hf]
  by_cases hne : (es.filter fun e => decide (e.1 = k)) = []
  · refine .inl ⟨?_, hne⟩
    rw [List.filter_eq_nil_iff.2, List.map_nil]
    intro i _ h
    exact (of_decide_eq_true h).2 hne
  · have hpos : 0 < (es.filter fun e => decide (e.1 = k)).length := List.length_pos_iff.2 hne
    refine .inr ⟨es.countP fun e => decide (e.1 < k), by omega, ?_, ?_⟩
    · have : (List.range es.length).filter (fun i => decide (i = es.countP (fun e => decide (e.1 < k)) ∧ (es.filter fun e => decide (e.1 = k)) ≠ [])) =
          (List.range es.length).filter fun i => decide (i = es.countP fun e => decide (e.1 < k)) :=
        List.filter_congr fun i _ => by rw [decide_eq_decide]; exact and_iff_left hne
      rw [this, filter_range_eq, if_pos (by omega)]
      rfl
    · have hsp := sorted_split (r := fun e : GEdge => e.1) k hs
      have hd : es.drop (es.countP fun e => decide (e.1 < k)) = es.filter fun a => decide (¬a.1 < k) := by
        conv_lhs => arg 2; rw [hsp]
        rw [List.countP_eq_length_filter, List.drop_left]
      rw [hd, takeWhile_run (hs.filter _) fun e he => by
        have := of_decide_eq_true (List.mem_filter.1 he).2
        omega, List.filter_filter]
      refine List.filter_congr fun e _ => ?_
      by_cases h : e.1 = k
      · rw [decide_eq_true h, Bool.true_and]
        exact decide_eq_true (by omega)
      · rw [decide_eq_false h, Bool.false_and]

/-! ## Inserting edges -/

/-- Renaming the keys of a list. -/
def rekey (ren : Nat → Nat) (l : List (Nat × Int)) : List (Nat × Int) := l.map fun x => (ren x.1, x.2)

theorem addTo_rekey {ren : Nat → Nat} {k : Nat} {w : Int} : ∀ {t : List (Nat × Int)}, (∀ x, x ∈ t → ren x.1 = ren k → x.1 = k) →
    addTo (ren k) w (rekey ren t) = rekey ren (addTo k w t)
  | [], _ => rfl
  | x :: t, h => by
    have ih := addTo_rekey (w := w) (t := t) fun y hy => h y (List.mem_cons_of_mem _ hy)
    show addTo (ren k) w ((ren x.1, x.2) :: rekey ren t) = _
    unfold addTo
    by_cases hx : x.1 = k
    · rw [if_pos hx, if_pos (by rw [hx])]
      rfl
    · rw [if_neg hx, if_neg fun h' => hx (h x List.mem_cons_self h'), ih]
      rfl

theorem addAll_rekey {ren : Nat → Nat} : ∀ {l t : List (Nat × Int)}, (∀ a b, a ∈ (t ++ l).map (·.1) → b ∈ (t ++ l).map (·.1) → ren a = ren b → a = b) →
    addAll (rekey ren l) (rekey ren t) = rekey ren (addAll l t)
  | [], _, _ => rfl
  | x :: l, t, h => by
    show addAll (rekey ren l) (addTo (ren x.1) x.2 (rekey ren t)) = rekey ren (addAll l (addTo x.1 x.2 t))
    have hx : x.1 ∈ (t ++ x :: l).map (·.1) := List.mem_map_of_mem (List.mem_append_right _ List.mem_cons_self)
    rw [addTo_rekey fun y hy => h _ _ (List.mem_map_of_mem (List.mem_append_left _ hy)) hx]
    refine addAll_rekey fun a b ha hb => h a b ?_ ?_
    · exact (addTo_sub ha)
    · exact (addTo_sub hb)
where
  addTo_sub {x : Nat × Int} {l t : List (Nat × Int)} {a : Nat} (ha : a ∈ (addTo x.1 x.2 t ++ l).map (·.1)) : a ∈ (t ++ x :: l).map (·.1) := by
    rw [List.map_append, List.mem_append, addTo_keys] at ha
    rw [List.map_append, List.mem_append, List.map_cons, List.mem_cons]
    rcases ha with ha | ha
    · split at ha
      · exact .inl ha
      · rcases List.mem_append.1 ha with ha | ha
        · exact .inl ha
        · exact .inr (.inl (List.mem_singleton.1 ha))
    · exact .inr (.inr ha)

variable {C : Nat → Nat} {dist : List Nat} {inp : Nat → Input} {g : Nat → DGraph} {lab : Nat → List Nat} {S : Nat → Orders}

/-- The local ID of a coarse node. -/
def lid (dist : List Nat) (C : Nat → Nat) (tg : List (Nat × Nat)) (q v : Nat) : Nat :=
  if owned dist C q v = true then v - first (cdistOf dist C) q else (tg.lookup (v + 1)).getD 0

theorem insertEdges_ok {q : Nat} (hq : q < procs dist) {tg : List (Nat × Nat)} {lcu : Nat} : ∀ (l map : List (Nat × Int)),
    (∀ x, x ∈ l → owned dist C q x.1 = true ∨ ∃ j, tg.lookup (x.1 + 1) = some j) →
    l.foldlM (insertEdge? q (cdistOf dist C) tg lcu) map =
      some (addAll (rekey (lid dist C tg q) (l.filter fun x => decide (lid dist C tg q x.1 ≠ lcu))) map)
  | [], _, _ => rfl
  | x :: l, map, h => by
    have hstep : insertEdge? q (cdistOf dist C) tg lcu map x =
        some (if lid dist C tg q x.1 ≠ lcu then addTo (lid dist C tg q x.1) x.2 map else map) := by
      unfold insertEdge? lid
      rw [isOwnedC_ok hq, Option.bind_some]
      by_cases ho : owned dist C q x.1 = true
      · rw [if_pos ho, if_pos ho, cdist_get (by omega), cdist_first (by omega)]
        rfl
      · rw [if_neg ho, if_neg ho]
        rcases h x List.mem_cons_self with h' | ⟨j, hj⟩
        · exact absurd h' ho
        · rw [hj]
          rfl
    rw [List.foldlM_cons, hstep]
    show l.foldlM _ _ = _
    rw [insertEdges_ok hq l _ fun y hy => h y (List.mem_cons_of_mem _ hy)]
    by_cases hx : lid dist C tg q x.1 ≠ lcu
    · rw [if_pos hx, List.filter_cons_of_pos (by simpa using hx)]
      rfl
    · rw [if_neg hx, List.filter_cons_of_neg (by simpa using hx)]

/-! ## The bucket of a coarse node -/

/-- The nodes of process `q` in the coarse node `lcu`. -/
def members (dist : List Nat) (C : Nat → Nat) (q lcu : Nat) : List Nat :=
  (List.range (localN dist q)).filter fun u => decide (cnode dist C (C (first dist q + u)) = first (cdistOf dist C) q + lcu)

/-- All edges of the coarse node `lcu` that process `q` has. -/
def allOf (S : Nat → Orders) (dist : List Nat) (inp : Nat → Input) (C : Nat → Nat) (q lcu : Nat) : List (Nat × Int) :=
  (members dist C q lcu).flatMap (locOf dist inp C q) ++ ((inE S dist inp C q).filter fun e => decide (e.1 = lcu)).map (·.2)

variable (K : Clustered dist inp g lab C)
include K
variable (hS : ∀ p, p < procs dist → (S p).Ok)
include hS

theorem Clustered.bucket {q lcu : Nat} (hq : q < procs dist) (hl : lcu < localN (cdistOf dist C) q) :
    bucket? (S q) (g q) (lab q) (lcs dist C q) (inE S dist inp C q) lcu =
      some ((S q).bucket lcu (members dist C q lcu ++ bucketEdges (localN dist q) (inE S dist inp C q) lcu)) := by
  have W := K.world
  have R := W.represents q hq
  have hx : first (cdistOf dist C) q + lcu < first (cdistOf dist C) (q + 1) := by unfold localN at hl; omega
  unfold bucket?
  have h1 : (List.range (g q).n).mapM (bucketNode? (g q) (lab q) (lcs dist C q) lcu) =
      some ((List.range (localN dist q)).map fun u => if decide (cnode dist C (C (first dist q + u)) = first (cdistOf dist C) q + lcu) = true then [u] else []) := by
    rw [R.n_eq]
    refine mapM_some fun u hu => ?_
    have hu := List.mem_range.1 hu
    have ht := Nat.lt_of_lt_of_le hu (W.local_le_total hq)
    have hus : used C (globalN dist) (C (first dist q + u)) = true := used_iff.2 ⟨_, owned_lt W hq hu, rfl⟩
    have hco := cnode_owned (q := q) hus
    rw [← cdist_first (by omega), ← cdist_first (by omega)] at hco
    unfold bucketNode?
    rw [K.label hq ht, Option.bind_some, W.isOwned hq, Option.bind_some, W.glob_own hq hu]
    by_cases ho : first dist q ≤ C (first dist q + u) ∧ C (first dist q + u) < first dist (q + 1)
    · rw [if_pos (by simpa using ho), K.lcnode hS hq ho.1 ho.2 hus, Option.map_some]
      have h2 := hco.1 ho
      have h3 : cnode dist C (first dist q) = first (cdistOf dist C) q := (cdist_first (by omega)).symm
      rw [h3]
      congr 1
      by_cases he : cnode dist C (C (first dist q + u)) = first (cdistOf dist C) q + lcu
      · rw [if_pos (by omega), if_pos (by simpa using he)]
      · rw [if_neg (by omega), if_neg (by simpa using he)]
    · rw [if_neg (by simpa using ho), if_neg]
      intro h
      have h := of_decide_eq_true h
      exact ho (hco.2 (by omega))
  rw [h1, Option.map_some, R.n_eq]
  have h2 := flatMap_ite (fun u => decide (cnode dist C (C (first dist q + u)) = first (cdistOf dist C) q + lcu)) id (List.range (localN dist q))
  rw [List.map_id] at h2
  unfold members
  rw [← h2]
  rfl

theorem Clustered.entries {q lcu : Nat} (hq : q < procs dist) (hl : lcu < localN (cdistOf dist C) q) : ∃ l,
    ((S q).bucket lcu (members dist C q lcu ++ bucketEdges (localN dist q) (inE S dist inp C q) lcu)).mapM
        (entryEdges? (g q) (gcnOf dist g C q) (inE S dist inp C q) lcu) = some l ∧
      (l.map (·.2)).flatten.Perm (allOf S dist inp C q lcu) ∧ (l.map (·.1)).sum = ((members dist C q lcu).map (inp q).nodeWeight).sum := by
  have W := K.world
  have R := W.represents q hq
  have hn := K.local_small hq
  have hin := K.in_length hS hq
  let F : Nat → Int × List (Nat × Int) := fun u => if u < localN dist q then ((inp q).nodeWeight u, locOf dist inp C q u)
    else (0, (((inE S dist inp C q).drop (u - localN dist q)).takeWhile fun e => decide (e.1 = lcu)).map (·.2))
  have hmem : ∀ u, u ∈ members dist C q lcu → u < localN dist q := fun u hu => List.mem_range.1 (List.mem_filter.1 hu).1
  have hF : ∀ u, entryEdges? (g q) (gcnOf dist g C q) (inE S dist inp C q) lcu u = some (F u) := by
    intro u
    unfold entryEdges?
    show _ = some (if _ then _ else _)
    rw [R.n_eq]
    by_cases hu : u < localN dist q
    · obtain ⟨l, h1, h2⟩ := K.coarse_neighbours hq hu
      rw [if_pos hu, if_pos hu, R.node_weight u hu, Option.bind_some, h1, Option.bind_some, h2, Option.map_some]
    · rw [if_neg hu, if_neg hu]
  have hp := (hS q hq).bucket lcu (members dist C q lcu ++ bucketEdges (localN dist q) (inE S dist inp C q) lcu)
  refine ⟨_, mapM_some fun u _ => hF u, ?_, ?_⟩
  · rw [List.map_map]
    have h1 := ((hp.map ((·.2) ∘ F)).flatten)
    refine h1.trans (List.Perm.of_eq ?_)
    rw [List.map_append, List.flatten_append]
    unfold allOf
    congr 1
    · show (members dist C q lcu).flatMap ((·.2) ∘ F) = _
      refine List.flatMap_congr fun u hu => ?_
      show (F u).2 = _
      show (if _ then _ else _ : Int × List (Nat × Int)).2 = _
      rw [if_pos (hmem u hu)]
    · rcases bucketEdges_ok (n := localN dist q) (k := lcu) (K.in_sorted hS hq) with ⟨h2, h3⟩ | ⟨i, hi, h2, h3⟩
      · rw [h2, h3]; rfl
      · have hmod : (localN dist q + i) % 2 ^ 32 = localN dist q + i := Nat.mod_eq_of_lt (by omega)
        rw [h2, hmod, List.map_singleton, List.flatten_singleton, ← h3]
        show (if _ then _ else _ : Int × List (Nat × Int)).2 = _
        rw [if_neg (by omega), Nat.add_sub_cancel_left]
  · rw [List.map_map]
    rw [(hp.map ((·.1) ∘ F)).sum_eq, List.map_append, sum_append_int]
    have h1 : ((members dist C q lcu).map ((·.1) ∘ F)) = (members dist C q lcu).map (inp q).nodeWeight := by
      refine List.map_congr_left fun u hu => ?_
      show (if _ then _ else _ : Int × List (Nat × Int)).1 = _
      rw [if_pos (hmem u hu)]
    have h2 : ((bucketEdges (localN dist q) (inE S dist inp C q) lcu).map ((·.1) ∘ F)).sum = 0 := by
      rcases bucketEdges_ok (n := localN dist q) (k := lcu) (K.in_sorted hS hq) with ⟨h2, h3⟩ | ⟨i, hi, h2, h3⟩
      · rw [h2]; rfl
      · have hmod : (localN dist q + i) % 2 ^ 32 = localN dist q + i := Nat.mod_eq_of_lt (by omega)
        rw [h2, hmod, List.map_singleton, List.sum_singleton]
        show (if _ then _ else _ : Int × List (Nat × Int)).1 = _
        rw [if_neg (by omega)]
    rw [h1, h2, Int.add_zero]

/-- The targets of the edges of a coarse node are known. -/
theorem Clustered.all_known {q lcu : Nat} (hq : q < procs dist) (hl : lcu < localN (cdistOf dist C) q) {x : Nat × Int}
    (hx : x ∈ allOf S dist inp C q lcu) : x.1 < globalN (cdistOf dist C) ∧ (owned dist C q x.1 = true ∨ x.1 ∈ ghostTargets S dist inp C q) := by
  have hxx : first (cdistOf dist C) q + lcu < first (cdistOf dist C) (q + 1) := by unfold localN at hl; omega
  rcases List.mem_append.1 hx with hx | hx
  · obtain ⟨u, hu, hy⟩ := List.mem_flatMap.1 hx
    have hu := List.mem_filter.1 hu
    have hul := List.mem_range.1 hu.1
    have he := of_decide_eq_true hu.2
    refine ⟨K.loc_lt hq hul hy, ?_⟩
    cases ho : owned dist C q x.1 with
    | true => exact .inl rfl
    | false =>
      refine .inr ((K.ghostTargets_mem hS).2 ⟨ho, .inl ⟨u, hul, ?_, List.mem_map_of_mem hy⟩⟩)
      rw [owned_iff, he]
      omega
  · obtain ⟨e, he, rfl⟩ := List.mem_map.1 hx
    have he := (List.mem_filter.1 he).1
    refine ⟨(K.in_mem hS hq he).2, ?_⟩
    cases ho : owned dist C q e.2.1 with
    | true => exact .inl rfl
    | false => exact .inr ((K.ghostTargets_mem hS).2 ⟨ho, .inr ⟨e, he, rfl⟩⟩)

end Verif.Dist
