import Verif.Dist.HEMLocal

/-!
# Heavy edge matching: requests to other processes
-/

namespace Verif.Dist
open Verif

variable {dist : List Nat} {inp : Nat → Input} {g : Nat → DGraph} {ord : ColorOrder} {c : Nat} {q : Nat} {m : Nat → Nat}

/-- The node `u` of process `p` is one of the colour. -/
def ColorOrder.Class (ord : ColorOrder) (c p u : Nat) : Prop := ∃ i, ord.start p c ≤ i ∧ i < ord.start p (c + 1) ∧ ord.node p i = u

theorem World.hem_requests (W : World dist inp g) (O : ord.Ok dist inp) (hc : c < ord.colors) {ex : Nat → Execution}
    (hex : Executions dist (fun p => ord.start p c) (fun p => ord.start p (c + 1)) ex) {m1 : Nat → Nat → Nat} (hq : q < procs dist) :
    ∃ rq, hemRequests? (procs dist) ord g m1 ex q = some rq ∧ ∀ r, r ∈ rq ↔ r.pe < procs dist ∧ r.pe ≠ q ∧ ord.Class c r.pe r.theirs ∧
      r.mine < localN dist q ∧ first dist q + r.mine = m1 r.pe r.theirs ∧ (first dist q + r.mine, r.weight) ∈ (inp r.pe).neighbours r.theirs := by
  have hmap := (O.colorClass hc).lt
  obtain ⟨calls, h1, h2, h3⟩ := C65_messages_to_ghosts W ((0, 0, 0) : Nat × Nat × Int) (fun p => ord.start p c) (fun p => ord.start p (c + 1))
    ord.node (fun p u v _ => decide ((g p).localToGlobal? v = some (m1 p u)))
    (fun p u v w pe => (u, ((g p).localToGlobal? v).getD 0 - (g p).dist.getD pe 0, w)) ex hmap hex q hq
  have hknown : ∀ p u x, p < procs dist → u < localN dist p → x ∈ (inp p).neighbours u →
      (g p).localToGlobal? (((g p).globalToLocal? x.1).getD 0) = some x.1 := by
    intro p u x hp hu hx
    have R := W.represents p hp
    obtain ⟨adj, _, h5⟩ := R.neighbours u hu
    obtain ⟨y, hy, hy2⟩ := (mapM_mem h5).2 x hx
    obtain ⟨v, hv, rfl⟩ := Option.map_eq_some_iff.1 hy2
    dsimp only
    rw [R.inverse _ _ (lt_total hv) hv]
    exact hv
  refine ⟨_, by unfold hemRequests?; rw [h1]; rfl, fun r => ?_⟩
  have hfs := first_succ W hq
  constructor
  · intro hr
    obtain ⟨⟨p, msgs⟩, hc1, hc2⟩ := List.mem_flatMap.1 hr
    obtain ⟨t, ht, rfl⟩ := List.mem_map.1 hc2
    have hp : p < procs dist := List.mem_range.1 (h2.mem_iff.1 (List.mem_map.2 ⟨_, hc1, rfl⟩))
    obtain ⟨i, hi, hi2⟩ := List.mem_flatMap.1 ((h3 p msgs hc1).mem_iff.1 ht)
    rw [List.mem_range'_1] at hi
    obtain ⟨x, hx, hx2⟩ := List.mem_filterMap.1 hi2
    have hu := hmap p hp i (by omega) (by omega)
    rw [hknown p _ x hp hu hx] at hx2
    split at hx2
    · rename_i hcond
      injection hx2 with hx2
      subst hx2
      dsimp only
      obtain ⟨c1, c2, c3⟩ := hcond
      rw [decide_eq_true_iff] at c3
      injection c3 with c3
      rw [(W.represents p hp).dist_eq]
      have e : first dist q + (x.1 - first dist q) = x.1 := by omega
      refine ⟨hp, Ne.symm c1, ⟨i, by omega, by omega, rfl⟩, ?_, ?_, ?_⟩
      · show x.1 - first dist q < _
        omega
      · show first dist q + (x.1 - first dist q) = _
        rw [e, c3]
      · show (first dist q + (x.1 - first dist q), x.2) ∈ _
        rw [e]
        exact hx
    · cases hx2
  · rintro ⟨hp, hne, ⟨i, hi1, hi2, hi3⟩, hmine, he, hx⟩
    obtain ⟨pe, mine, theirs, weight⟩ := r
    dsimp only at *
    subst hi3
    obtain ⟨⟨p', msgs⟩, hc1, hpp⟩ := List.mem_map.1 (h2.mem_iff.2 (List.mem_range.2 hp))
    dsimp only at hpp
    subst hpp
    refine List.mem_flatMap.2 ⟨_, hc1, List.mem_map.2 ⟨(ord.node p' i, mine, weight), (h3 p' msgs hc1).mem_iff.2 ?_, rfl⟩⟩
    refine List.mem_flatMap.2 ⟨i, by rw [List.mem_range'_1]; omega, List.mem_filterMap.2 ⟨_, hx, ?_⟩⟩
    rw [hknown p' _ _ hp (hmap p' hp i hi1 hi2) hx, if_pos ⟨Ne.symm hne, ⟨by omega, by omega⟩, by rw [decide_eq_true_iff, he]⟩,
      (W.represents p' hp).dist_eq]
    show some (_, first dist q + mine - first dist q, _) = _
    rw [Nat.add_sub_cancel_left]

theorem propose_fold : ∀ (l : List (MatchRequest × Bool)) (m : Nat → Nat) (x : Nat),
    l.foldl hemPropose m x = m x ∨ ∃ e, e ∈ l ∧ e.1.mine = x ∧ x ≠ invalidN ∧ l.foldl hemPropose m x % 2 ^ 32 = e.1.theirs % 2 ^ 32
  | [], m, x => Or.inl rfl
  | e :: l, m, x => by
    rw [List.foldl_cons]
    rcases propose_fold l (hemPropose m e) x with h | ⟨e', h1, h2⟩
    · rw [h]
      have key : hemPropose m e = m ∨ e.1.mine ≠ invalidN ∧ hemPropose m e = upd m e.1.mine (e.1.weight.toNat * 2 ^ 32 + e.1.theirs) := by
        unfold hemPropose
        by_cases hn : e.1.mine = invalidN ∨ e.2 = true ∨ e.1.weight ≤ (if m e.1.mine = invalidG then 0 else ((m e.1.mine / 2 ^ 32 : Nat) : Int))
        · exact Or.inl (if_pos hn)
        · exact Or.inr ⟨fun h => hn (Or.inl h), if_neg hn⟩
      rcases key with key | ⟨hn, key⟩ <;> rw [key]
      · exact Or.inl rfl
      · by_cases hx : x = e.1.mine
        · subst hx
          rw [upd_same]
          exact Or.inr ⟨e, List.mem_cons_self, rfl, hn, Nat.mul_add_mod_self_right _ _ _⟩
        · rw [upd_ne _ _ hx]; exact Or.inl rfl
    · exact Or.inr ⟨e', List.mem_cons_of_mem _ h1, h2⟩

theorem accept_fold (W : World dist inp g) (hq : q < procs dist) : ∀ (l : List MatchRequest) (m : Nat → Nat),
    (∀ r, r ∈ l → r.mine = invalidN ∨ r.mine < localN dist q) →
    ∃ m2, l.foldlM (hemAccept? (g q)) m = some m2 ∧ ∀ x, ((∃ r, r ∈ l ∧ r.mine = x ∧ x ≠ invalidN) → m2 x = first dist q + x) ∧
      ((¬ ∃ r, r ∈ l ∧ r.mine = x ∧ x ≠ invalidN) → m2 x = m x)
  | [], m, _ => ⟨m, rfl, fun x => ⟨fun ⟨_, h, _⟩ => absurd h List.not_mem_nil, fun _ => rfl⟩⟩
  | r :: l, m, h => by
    have key : ∃ m1, hemAccept? (g q) m r = some m1 ∧ (r.mine ≠ invalidN → m1 r.mine = first dist q + r.mine) ∧
        ∀ x, (x ≠ r.mine ∨ r.mine = invalidN) → m1 x = m x := by
      unfold hemAccept?
      by_cases h1 : r.mine = invalidN
      · exact ⟨m, if_pos h1, fun h2 => absurd h1 h2, fun _ _ => rfl⟩
      · rw [if_neg h1, (W.represents q hq).own _ ((h r List.mem_cons_self).resolve_left h1)]
        exact ⟨_, rfl, fun _ => upd_same _ _ _, fun x hx => upd_ne _ _ (hx.resolve_right h1)⟩
    obtain ⟨m1, h1, h2, h3⟩ := key
    obtain ⟨m2, h4, h5⟩ := accept_fold W hq l m1 fun r' hr => h r' (List.mem_cons_of_mem _ hr)
    refine ⟨m2, by rw [List.foldlM_cons, h1]; exact h4, fun x => ⟨?_, fun hno => ?_⟩⟩
    · rintro ⟨r', h6, h7, h8⟩
      by_cases h9 : ∃ r, r ∈ l ∧ r.mine = x ∧ x ≠ invalidN
      · exact (h5 x).1 h9
      · rcases List.mem_cons.1 h6 with rfl | h6
        · subst h7
          rw [(h5 _).2 h9, h2 h8]
        · exact absurd ⟨r', h6, h7, h8⟩ h9
    · rw [(h5 x).2 fun ⟨r', h6, h7⟩ => hno ⟨r', List.mem_cons_of_mem _ h6, h7⟩]
      refine h3 x ?_
      by_contra hcon
      have h6 := not_or.1 hcon
      have h7 : x = r.mine := by simpa using h6.1
      exact hno ⟨r, List.mem_cons_self, h7.symm, by rw [h7]; exact h6.2⟩

theorem respond_fold : ∀ (l : List MatchRequest) (m : Nat → Nat) (x : Nat),
    ((∃ r, r ∈ l ∧ r.mine = invalidN ∧ r.theirs = x) → l.foldl hemRespond m x = invalidG) ∧
    ((¬ ∃ r, r ∈ l ∧ r.mine = invalidN ∧ r.theirs = x) → l.foldl hemRespond m x = m x)
  | [], m, x => ⟨fun ⟨_, h, _⟩ => absurd h List.not_mem_nil, fun _ => rfl⟩
  | r :: l, m, x => by
    obtain ⟨h1, h2⟩ := respond_fold l (hemRespond m r) x
    rw [List.foldl_cons]
    refine ⟨?_, fun hno => ?_⟩
    · rintro ⟨r', h6, h7, h8⟩
      by_cases h9 : ∃ r, r ∈ l ∧ r.mine = invalidN ∧ r.theirs = x
      · exact h1 h9
      · rcases List.mem_cons.1 h6 with rfl | h6
        · rw [h2 h9]
          unfold hemRespond
          rw [if_pos h7, h8, upd_same]
        · exact absurd ⟨r', h6, h7, h8⟩ h9
    · rw [h2 fun ⟨r', h6, h7⟩ => hno ⟨r', List.mem_cons_of_mem _ h6, h7⟩]
      unfold hemRespond
      split
      · rename_i h3
        exact upd_ne _ _ fun h4 => hno ⟨r, List.mem_cons_self, h3, h4.symm⟩
      · rfl

/-- The process `q` answers its requests: `A x p u` says that the node `x` accepts the request of the node `u` of process `p`. -/
structure Resolved (dist : List Nat) (q : Nat) (rq : List MatchRequest) (m : Nat → Nat) (answers : List MatchRequest) (m2 : Nat → Nat)
    (A : Nat → Nat → Nat → Prop) : Prop where
  free : ∀ x p u, A x p u → m x = invalidG
  request : ∀ x p u, A x p u → ∃ r, r ∈ rq ∧ r.pe = p ∧ r.theirs = u ∧ r.mine = x
  one : ∀ x p u p' u', A x p u → A x p' u' → p = p' ∧ u = u'
  answer : ∀ r, r ∈ rq → (A r.mine r.pe r.theirs → r ∈ answers) ∧ (¬ A r.mine r.pe r.theirs → { r with mine := invalidN } ∈ answers)
  only : ∀ r', r' ∈ answers → ∃ r, r ∈ rq ∧ (A r.mine r.pe r.theirs ∧ r' = r ∨ ¬ A r.mine r.pe r.theirs ∧ r' = { r with mine := invalidN })
  accepted : ∀ x p u, A x p u → m2 x = first dist q + x
  same : ∀ x, (∀ p u, ¬ A x p u) → m2 x = m x

theorem World.hem_resolve (W : World dist inp g) (hq : q < procs dist) (hsmall : (g q).totalN < 2 ^ 31) {rq : List MatchRequest}
    (hrq : ∀ r, r ∈ rq → r.pe < procs dist ∧ r.pe ≠ q ∧ r.theirs < localN dist r.pe ∧ r.mine < localN dist q ∧
      first dist r.pe + r.theirs ∈ foreign dist q (inp q)) {order : List MatchRequest → List (MatchRequest × Bool)}
    (ho : ∀ l, ((order l).map (·.1)).Perm l) :
    ∃ answers m2 A, hemResolve? (g q) order rq m = some (answers, m2) ∧ Resolved dist q rq m answers m2 A := by
  have V := W.valid q hq
  have R := W.represents q hq
  have htot := R.total
  let gh : MatchRequest → Nat := fun r => ((g q).mapRemote? r.theirs r.pe).getD 0
  have hgh : ∀ r, r ∈ rq → (g q).mapRemote? r.theirs r.pe = some (gh r) ∧ gh r < 2 ^ 31 ∧
      (g q).localToGlobal? (gh r) = some (first dist r.pe + r.theirs) := by
    intro r hr
    obtain ⟨h1, h2, h3, h4, h5⟩ := hrq r hr
    obtain ⟨l, hl⟩ := (W.mapRemote hq h1 h2 h3).1 h5
    obtain ⟨h6, _, h7, _⟩ := (W.mapRemote hq h1 h2 h3).2 l hl
    have e : gh r = l := by
      show ((g q).mapRemote? r.theirs r.pe).getD 0 = l
      rw [hl]; rfl
    rw [e]
    exact ⟨hl, by omega, h7⟩
  have hmine : ∀ r, r ∈ rq → r.mine ≠ invalidN := by
    intro r hr
    have := (hrq r hr).2.2.2.1
    unfold invalidN
    omega
  let loc : MatchRequest → MatchRequest := fun r => if m r.mine ≠ invalidG then { r with mine := invalidN } else { r with theirs := gh r }
  have hloc : (rq.map (hemReject m)).mapM (hemLocate? (g q)) = some (rq.map loc) := by
    rw [List.mapM_map]
    refine mapM_some fun r hr => ?_
    show hemLocate? (g q) (hemReject m r) = some (if m r.mine ≠ invalidG then { r with mine := invalidN } else { r with theirs := gh r })
    unfold hemReject hemLocate?
    by_cases h1 : m r.mine ≠ invalidG
    · rw [if_pos h1, if_pos h1, if_pos rfl]
    · rw [if_neg h1, if_neg h1, if_neg (hmine r hr), (hgh r hr).1]
      rfl
  obtain ⟨M, hM⟩ : ∃ M, M = (order (rq.map loc)).foldl hemPropose m := ⟨_, rfl⟩
  have hfold : ∀ x, M x = m x ∨ ∃ r, r ∈ rq ∧ m r.mine = invalidG ∧ r.mine = x ∧ M x % 2 ^ 32 = gh r := by
    intro x
    rcases propose_fold (order (rq.map loc)) m x with h | ⟨e, h1, h2, h3, h4⟩
    · rw [← hM] at h; exact Or.inl h
    · rw [← hM] at h4
      obtain ⟨r, hr, hr2⟩ := List.mem_map.1 ((ho (rq.map loc)).mem_iff.1 (List.mem_map.2 ⟨e, h1, rfl⟩))
      have hr2 : (if m r.mine ≠ invalidG then { r with mine := invalidN } else { r with theirs := gh r } : MatchRequest) = e.1 := hr2
      by_cases h5 : m r.mine ≠ invalidG
      · rw [if_pos h5] at hr2
        exact absurd (by rw [← h2, ← hr2]) h3
      · rw [if_neg h5] at hr2
        right
        refine ⟨r, hr, by simpa using h5, by rw [← h2, ← hr2], ?_⟩
        rw [h4, ← hr2]
        have := (hgh r hr).2.1
        exact Nat.mod_eq_of_lt (show gh r < 2 ^ 32 by omega)
  let ans : MatchRequest → MatchRequest := fun r =>
    if m r.mine ≠ invalidG then { r with mine := invalidN } else { r with mine := if gh r ≠ M r.mine % 2 ^ 32 then invalidN else r.mine }
  have hans : (rq.map loc).mapM (hemAnswer? (g q) M) = some (rq.map ans) := by
    rw [List.mapM_map]
    refine mapM_some fun r hr => ?_
    show hemAnswer? (g q) M (if m r.mine ≠ invalidG then { r with mine := invalidN } else { r with theirs := gh r }) =
      some (if m r.mine ≠ invalidG then { r with mine := invalidN } else { r with mine := if gh r ≠ M r.mine % 2 ^ 32 then invalidN else r.mine })
    unfold hemAnswer?
    by_cases h1 : m r.mine ≠ invalidG
    · rw [if_pos h1, if_pos h1, if_pos rfl]
    · rw [if_neg h1, if_neg h1, if_neg (by exact hmine r hr)]
      dsimp only
      rw [(hgh r hr).2.2, R.dist_eq]
      show some (MatchRequest.mk r.pe _ (first dist r.pe + r.theirs - first dist r.pe) r.weight) = _
      rw [Nat.add_sub_cancel_left]
  let A : Nat → Nat → Nat → Prop := fun x p u => m x = invalidG ∧ ∃ r, r ∈ rq ∧ r.pe = p ∧ r.theirs = u ∧ r.mine = x ∧ gh r = M x % 2 ^ 32
  have hgh2 : ∀ r r' : MatchRequest, r.pe = r'.pe → r.theirs = r'.theirs → gh r = gh r' := by
    intro r r' h1 h2
    show ((g q).mapRemote? r.theirs r.pe).getD 0 = ((g q).mapRemote? r'.theirs r'.pe).getD 0
    rw [h1, h2]
  have hansA : ∀ r, r ∈ rq → (A r.mine r.pe r.theirs → ans r = r) ∧ (¬ A r.mine r.pe r.theirs → ans r = { r with mine := invalidN }) := by
    intro r hr
    show (_ → (if m r.mine ≠ invalidG then { r with mine := invalidN } else { r with mine := if gh r ≠ M r.mine % 2 ^ 32 then invalidN else r.mine } : MatchRequest) = r) ∧
      (_ → (if m r.mine ≠ invalidG then { r with mine := invalidN } else { r with mine := if gh r ≠ M r.mine % 2 ^ 32 then invalidN else r.mine } : MatchRequest) = _)
    constructor
    · rintro ⟨h1, r', h2, h3, h4, h5, h6⟩
      rw [if_neg (by simpa using h1), if_neg (by rw [hgh2 r r' h3.symm h4.symm, h6]; simp)]
    · intro hno
      by_cases h1 : m r.mine ≠ invalidG
      · rw [if_pos h1]
      · rw [if_neg h1, if_pos fun h2 => hno ⟨by simpa using h1, r, hr, rfl, rfl, rfl, h2⟩]
  obtain ⟨m2, h1, h2⟩ := accept_fold W hq (rq.map ans) M fun r' hr' => by
    obtain ⟨r, hr, rfl⟩ := List.mem_map.1 hr'
    by_cases hA : A r.mine r.pe r.theirs
    · rw [(hansA r hr).1 hA]; exact Or.inr (hrq r hr).2.2.2.1
    · rw [(hansA r hr).2 hA]; exact Or.inl rfl
  have hacc : ∀ x, (∃ r', r' ∈ rq.map ans ∧ r'.mine = x ∧ x ≠ invalidN) ↔ ∃ p u, A x p u := by
    intro x
    constructor
    · rintro ⟨r', hr', h3, h4⟩
      obtain ⟨r, hr, rfl⟩ := List.mem_map.1 hr'
      by_cases hA : A r.mine r.pe r.theirs
      · rw [(hansA r hr).1 hA] at h3
        subst h3
        exact ⟨_, _, hA⟩
      · rw [(hansA r hr).2 hA] at h3
        exact absurd h3.symm h4
    · rintro ⟨p, u, hA⟩
      obtain ⟨h3, r, hr, h4, h5, h6, h7⟩ := hA
      have hA : A r.mine r.pe r.theirs := by subst h6; exact ⟨h3, r, hr, rfl, rfl, rfl, h7⟩
      exact ⟨ans r, List.mem_map.2 ⟨r, hr, rfl⟩, by rw [(hansA r hr).1 hA, h6], by rw [← h6]; exact hmine r hr⟩
  refine ⟨rq.map ans, m2, A, ?_, fun x p u h => h.1, ?_, ?_, fun r hr => ⟨fun h => ?_, fun h => ?_⟩, fun r' hr' => ?_, fun x p u h => ?_, fun x h => ?_⟩
  · unfold hemResolve?
    rw [hloc, Option.bind_some, ← hM, hans, Option.bind_some, h1]
    rfl
  · rintro x p u ⟨_, r, hr, h3, h4, h5, _⟩
    exact ⟨r, hr, h3, h4, h5⟩
  · rintro x p u p' u' ⟨_, r, hr, rfl, rfl, h5, h6⟩ ⟨_, r', hr', rfl, rfl, h5', h6'⟩
    have e : gh r = gh r' := by rw [h6, h6']
    have e1 := (hgh r hr).2.2
    rw [e, (hgh r' hr').2.2] at e1
    injection e1 with e1
    obtain ⟨a1, _, a2, _⟩ := hrq r hr
    obtain ⟨b1, _, b2, _⟩ := hrq r' hr'
    have hO : Owns dist r.pe (first dist r.pe + r.theirs) := by
      rw [V.owns_iff' a1]; have := first_succ W a1; omega
    have hO' : Owns dist r'.pe (first dist r.pe + r.theirs) := by
      rw [V.owns_iff' b1]; have := first_succ W b1; omega
    have hpe := V.owns_unique hO hO'
    rw [hpe] at e1
    exact ⟨hpe, by omega⟩
  · have := (hansA r hr).1 h
    exact List.mem_map.2 ⟨r, hr, this⟩
  · have := (hansA r hr).2 h
    exact List.mem_map.2 ⟨r, hr, this⟩
  · obtain ⟨r, hr, rfl⟩ := List.mem_map.1 hr'
    by_cases hA : A r.mine r.pe r.theirs
    · exact ⟨r, hr, Or.inl ⟨hA, (hansA r hr).1 hA⟩⟩
    · exact ⟨r, hr, Or.inr ⟨hA, (hansA r hr).2 hA⟩⟩
  · exact (h2 x).1 ((hacc x).2 ⟨p, u, h⟩)
  · rw [(h2 x).2 fun h3 => by
      obtain ⟨p, u, h4⟩ := (hacc x).1 h3
      exact h p u h4]
    rcases hfold x with h3 | ⟨r, hr, h3, rfl, h4⟩
    · exact h3
    · exact absurd ⟨h3, r, hr, rfl, rfl, rfl, h4.symm⟩ (h r.pe r.theirs)

/-- The entries of a list of nodes of each process are sent to the processes that know the nodes. -/
theorem World.list_sync (W : World dist inp g) (hsym : Symmetric dist inp) {nodes : Nat → List Nat}
    (hlt : ∀ p, p < procs dist → ∀ u, u ∈ nodes p → u < localN dist p) (val : Nat → Nat → Nat) {msgs : Nat → List (Nat × Nat × Nat)}
    (hmsgs : ∀ p, p < procs dist → hemMessages? (g p) (nodes p) (val p) = some (msgs p)) {shuffle : List (Nat × Nat) → List (Nat × Nat)}
    (hsh : ∀ l, (shuffle l).Perm l) {me : Nat} (hme : me < procs dist) (arr : Nat → Nat) :
    ∃ arr', receive? (g me) (g me).totalN shuffle ((List.range (procs dist)).map fun q => (q, (msgs q).filterMap fun x =>
        if x.1 = me then some x.2 else none)) arr = some arr' ∧
      ∀ l v q, (g me).localToGlobal? l = some v → Owns dist q v →
        (q ≠ me → v - first dist q ∈ nodes q → arr' l = val q (v - first dist q)) ∧ (q = me ∨ v - first dist q ∉ nodes q → arr' l = arr l) := by
  have R := W.represents me hme
  have V := W.valid me hme
  obtain ⟨calls, hcalls⟩ : ∃ calls, calls = (List.range (procs dist)).map fun q => (q, (msgs q).filterMap fun x =>
        if x.1 = me then some x.2 else none) := ⟨_, rfl⟩
  rw [← hcalls]
  have h2 : ∀ p u y, (∃ ms, (p, ms) ∈ calls ∧ (u, y) ∈ ms) ↔ p < procs dist ∧ u ∈ nodes p ∧ y = val p u ∧ me ≠ p ∧ touches dist (inp p) u me = true := by
    intro p u y
    have key : p < procs dist → ((u, y) ∈ (msgs p).filterMap (fun x => if x.1 = me then some x.2 else none) ↔
        u ∈ nodes p ∧ y = val p u ∧ me ≠ p ∧ touches dist (inp p) u me = true) := by
      intro hp
      have h3 := hmsgs p hp
      unfold hemMessages? at h3
      obtain ⟨ls, h4, h5⟩ := Option.map_eq_some_iff.1 h3
      have h6 := mapM_mem h4
      rw [← h5, List.filterMap_flatten, List.mem_flatten]
      constructor
      · rintro ⟨l0, hl0, hin⟩
        obtain ⟨l1, hl1, rfl⟩ := List.mem_map.1 hl0
        obtain ⟨u', hu', hu2⟩ := h6.2 l1 hl1
        obtain ⟨its, a1, _, a3⟩ := W.pe_messages hp (fun _ => true) (fun u _ => (u, val p u)) (hlt p hp u' hu')
        rw [a1] at hu2
        injection hu2 with hu2
        subst hu2
        rw [a3 me hme] at hin
        split at hin
        · rename_i hcond
          simp only [Bool.and_eq_true, decide_eq_true_iff] at hcond
          have hin := List.mem_singleton.1 hin
          injection hin with e1 e2
          subst e1
          exact ⟨hu', e2, hcond.1.2, hcond.2⟩
        · cases hin
      · rintro ⟨hu, rfl, hne, ht⟩
        obtain ⟨l1, hl1, hu2⟩ := h6.1 u hu
        obtain ⟨its, a1, _, a3⟩ := W.pe_messages hp (fun _ => true) (fun u _ => (u, val p u)) (hlt p hp u hu)
        rw [a1] at hu2
        injection hu2 with hu2
        subst hu2
        refine ⟨_, List.mem_map.2 ⟨its, hl1, rfl⟩, ?_⟩
        rw [a3 me hme, if_pos (by simp only [Bool.and_eq_true, decide_eq_true_iff]; exact ⟨⟨trivial, hne⟩, ht⟩)]
        exact List.mem_singleton.2 rfl
    constructor
    · rintro ⟨ms, hc, hm⟩
      rw [hcalls] at hc
      obtain ⟨q, hq, e⟩ := List.mem_map.1 hc
      injection e with e1 e2
      subst e1
      subst e2
      have hq := List.mem_range.1 hq
      exact ⟨hq, (key hq).1 hm⟩
    · rintro ⟨hp, h⟩
      exact ⟨_, by rw [hcalls]; exact List.mem_map.2 ⟨p, List.mem_range.2 hp, rfl⟩, (key hp).2 h⟩
  let glob : Nat → Nat := fun l => ((g me).localToGlobal? l).getD 0
  let good : Nat → Nat := fun l => val ((g me).findOwner (glob l)) (glob l - first dist ((g me).findOwner (glob l)))
  have hgood : ∀ l v q, (g me).localToGlobal? l = some v → Owns dist q v → good l = val q (v - first dist q) := by
    intro l v q hl hq
    have h3 : glob l = v := by
      show ((g me).localToGlobal? l).getD 0 = v
      rw [hl]; rfl
    show val ((g me).findOwner (glob l)) (glob l - first dist ((g me).findOwner (glob l))) = _
    rw [h3]
    have h4 : v < first dist (dist.length - 1) := by
      have h5 := (V.owns_iff' hq.lt).1 hq
      have h6 := hq.lt
      unfold procs at h6
      have := V.mono (i := q + 1) (j := dist.length - 1) (by omega) (by omega)
      omega
    rw [V.owns_unique (R.find_owner v h4) hq]
  obtain ⟨arr', h3, h4⟩ := receive_ok (gr := g me) (cap := (g me).totalN) good hsh calls arr (by
    intro p msgs m hc hm
    obtain ⟨u, y⟩ := m
    obtain ⟨hp, hu', rfl, hne, ht⟩ := (h2 p u y).1 ⟨msgs, hc, hm⟩
    have hu := hlt p hp u hu'
    have hO : Owns dist p (first dist p + u) := by
      rw [V.owns_iff' hp]; unfold localN at hu; omega
    have hmem : first dist p + u ∈ foreign dist me (inp me) := by
      rw [W.foreign_mem hme]
      refine ⟨?_, fun h => hne (V.owns_unique h hO)⟩
      unfold touches at ht
      rw [List.any_eq_true] at ht
      obtain ⟨x, hx, hx2⟩ := ht
      rw [decide_eq_true_iff] at hx2
      obtain ⟨q, w, hq, hq2, hq3⟩ := hsym (first dist p + u) x.1 ⟨p, x.2, hp, hO, by rw [Nat.add_sub_cancel_left]; exact hx⟩
      have hqe : q = me := V.owns_unique hq2 ((V.owns_iff' hme).2 hx2)
      subst hqe
      exact V.neighbour_mem (by
        have := (V.owns_iff' hme).1 hq2
        unfold localN; omega) hq3
    obtain ⟨l, hl⟩ := (W.mapRemote hme hp (Ne.symm hne) hu).1 hmem
    obtain ⟨h5, _, h6, _⟩ := (W.mapRemote hme hp (Ne.symm hne) hu).2 l hl
    refine ⟨l, hl, by omega, ?_⟩
    rw [hgood l _ p h6 hO, Nat.add_sub_cancel_left])
  refine ⟨arr', h3, ?_⟩
  intro l v q hl hq
  rcases (W.node hme hl).2 with ⟨_, h5, h6, h7⟩ | ⟨_, h5, h6, q', _, h7, h8⟩
  · have hqe : q = me := V.owns_unique hq h7
    subst hqe
    refine ⟨fun h => absurd rfl h, fun _ => (h4 l).2 ?_⟩
    rintro ⟨p, msgs, ⟨u, y⟩, hc, hm, hr⟩
    obtain ⟨hp, hu', _, hne, _⟩ := (h2 p u y).1 ⟨msgs, hc, hm⟩
    have hu := hlt p hp u hu'
    have := (W.mapRemote hme hp (Ne.symm hne) hu).2 l hr
    omega
  · have hqe : q = q' := V.owns_unique hq h7
    subst hqe
    have hqlt := h7.lt
    have hqb := (V.owns_iff' hqlt).1 h7
    have hveq : first dist q + (v - first dist q) = v := by omega
    have hloc : v - first dist q < localN dist q := by unfold localN; omega
    refine ⟨fun _ hfil => ?_, fun hfil => ?_⟩
    swap
    · have hfil := hfil.resolve_left h8
      refine (h4 l).2 ?_
      rintro ⟨p, msgs, ⟨u, y⟩, hc, hm, hr⟩
      obtain ⟨hp, hu', _, hne, _⟩ := (h2 p u y).1 ⟨msgs, hc, hm⟩
      have hu := hlt p hp u hu'
      obtain ⟨_, _, hg', _⟩ := (W.mapRemote hme hp (Ne.symm hne) hu).2 l hr
      rw [hl] at hg'
      injection hg' with hg'
      have hpq : p = q := V.owns_unique (v := v) (by
        rw [V.owns_iff' hp, hg']; unfold localN at hu; omega) h7
      subst hpq
      rw [show v - first dist p = u by omega] at hfil
      exact hfil hu'
    rw [← hgood l v q hl h7]
    refine (h4 l).1 ?_
    obtain ⟨hadj, _⟩ := (W.foreign_mem hme).1 h6
    obtain ⟨u, w, hu, hn⟩ := V.adjncy_neighbour hadj
    have hO : Owns dist me (first dist me + u) := by
      rw [V.owns_iff' hme]; unfold localN at hu; omega
    obtain ⟨q2, w', hq2, hq3, hq4⟩ := hsym (first dist me + u) v ⟨me, w, hme, hO, by rw [Nat.add_sub_cancel_left]; exact hn⟩
    have hqe : q2 = q := V.owns_unique hq3 h7
    subst hqe
    obtain ⟨msgs, hc, hm⟩ := (h2 q2 (v - first dist q2) (val q2 (v - first dist q2))).2 ⟨hqlt, hfil, rfl, Ne.symm h8, by
      unfold touches
      rw [List.any_eq_true]
      exact ⟨_, hq4, by rw [decide_eq_true_iff]; exact (V.owns_iff' hme).1 hO⟩⟩
    refine ⟨q2, msgs, _, hc, hm, ?_⟩
    obtain ⟨l', hl'⟩ := (W.mapRemote hme hqlt h8 hloc).1 (by rw [hveq]; exact h6)
    obtain ⟨_, _, hg', _⟩ := (W.mapRemote hme hqlt h8 hloc).2 l' hl'
    rw [hveq] at hg'
    have e1 := R.inverse l' v (lt_total hg') hg'
    have e2 := R.inverse l v (lt_total hl) hl
    rw [e1] at e2
    injection e2 with e2
    subst e2
    exact hl'

end Verif.Dist
