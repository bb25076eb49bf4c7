import Verif.Dist.ColoringSim
import Verif.Dist.IndependentSet

/-!
# C76: the border nodes that the processes choose form an independent set of the whole graph
-/

namespace Verif.Dist
open Verif Verif.Math

variable {dist : List Nat} {inp : Nat → Input} {g : Nat → DGraph} {part : Nat → Nat → Nat} {P : Nat → Nat} {score : Nat → Int} {max : Int}

/-- The node `a` has a neighbour in another block. -/
def Border (dist : List Nat) (inp : Nat → Input) (P : Nat → Nat) (a : Nat) : Prop := ∃ b, IsEdge dist inp a b ∧ P b ≠ P a

theorem World.border (W : World dist inp g) {p u : Nat} (hp : p < procs dist) (hu : u < localN dist p)
    (hP : ∀ l v, (g p).localToGlobal? l = some v → part p l = P v) :
    ∃ b, borderNode? (g p) (part p) u = some b ∧ (b = true ↔ Border dist inp P (first dist p + u)) := by
  obtain ⟨adj, h1, h2, h3, _⟩ := W.adj hp hu
  have hu' := hP u _ ((W.represents p hp).own u hu)
  refine ⟨adj.any fun x => decide (part p x.1 ≠ part p u), ?_, ?_⟩
  · unfold borderNode?
    rw [h1]; rfl
  · rw [List.any_eq_true]
    constructor
    · rintro ⟨x, hx, hd⟩
      rw [decide_eq_true_iff] at hd
      obtain ⟨v, hv, he⟩ := h2 x.1 (List.mem_map.2 ⟨x, hx, rfl⟩)
      rw [hP _ _ he, hu'] at hd
      exact ⟨v, W.mem_nbs.1 hv, hd⟩
    · rintro ⟨v, hv, hd⟩
      obtain ⟨l, hl, he⟩ := h3 v (W.mem_nbs.2 hv)
      obtain ⟨x, hx, rfl⟩ := List.mem_map.1 hl
      refine ⟨x, hx, ?_⟩
      rw [decide_eq_true_iff, hP _ _ he, hu']
      exact hd

/-- The scores that process `p` holds. -/
structure Scores (dist : List Nat) (inp : Nat → Input) (g : Nat → DGraph) (P : Nat → Nat) (score : Nat → Int) (max : Int) (p : Nat)
    (arr : Nat → Int) : Prop where
  border : ∀ u, u < localN dist p → Border dist inp P (first dist p + u) → arr u = score (first dist p + u)
  inner : ∀ u, u < localN dist p → ¬ Border dist inp P (first dist p + u) → arr u = max
  ghost : ∀ l v, localN dist p ≤ l → (g p).localToGlobal? l = some v → arr l = -1 ∨ arr l = score v

/-- The neighbour `b` of the node `a` of process `p` does not keep the node out of the set. -/
def Allows (dist : List Nat) (inp : Nat → Input) (P : Nat → Nat) (score : Nat → Int) (p a b : Nat) : Prop :=
  score a < score b ∨ Owns dist p b ∧ ¬ Border dist inp P b

theorem lookAt_ok (W : World dist inp g) {p u : Nat} (hp : p < procs dist) (hu : u < localN dist p) (hs : ∀ a, 0 ≤ score a ∧ score a < max)
    (hB : Border dist inp P (first dist p + u)) : ∀ (ls : List Nat) (arr : Nat → Int) (b : Bool),
    (∀ l ∈ ls, ∃ v, (g p).localToGlobal? l = some v) → Scores dist inp g P score max p arr →
    ∃ arr' b', ls.foldlM (lookAt? (g p) score u) (arr, b) = some (arr', b') ∧ Scores dist inp g P score max p arr' ∧
      (b' = true ↔ b = true ∧ ∀ l ∈ ls, ∀ v, (g p).localToGlobal? l = some v → Allows dist inp P score p (first dist p + u) v)
  | [], arr, b, _, hA => ⟨arr, b, rfl, hA, by simp⟩
  | l :: ls, arr, b, hl, hA => by
    have R := W.represents p hp
    have V := W.valid p hp
    obtain ⟨v, hv⟩ := hl l (List.mem_cons_self ..)
    have key : ∃ arr1 b1, lookAt? (g p) score u (arr, b) l = some (arr1, b1) ∧ Scores dist inp g P score max p arr1 ∧
        (b1 = true ↔ b = true ∧ Allows dist inp P score p (first dist p + u) v) := by
      unfold lookAt?
      cases b with
      | false => exact ⟨arr, false, rfl, hA, by simp⟩
      | true =>
        rw [if_pos rfl]
        have hau := hA.border u hu hB
        have hsv := hs v
        have hsu := hs (first dist p + u)
        unfold Allows
        rcases (W.node hp hv).2 with ⟨_, h1, h2, h3⟩ | ⟨_, h1, _, q, _, h3, h4⟩
        · by_cases hb : Border dist inp P v
          · have := hA.border l h1 (by rw [← h2]; exact hb)
            rw [← h2] at this
            dsimp only
            rw [if_neg (show ¬ arr l < 0 by omega)]
            refine ⟨_, _, rfl, hA, ?_⟩
            rw [decide_eq_true_iff]
            show arr u < arr l ↔ _
            rw [this, hau]
            exact ⟨fun h => ⟨rfl, Or.inl h⟩, fun h => h.2.elim id fun h => absurd hb h.2⟩
          · have := hA.inner l h1 (by rw [← h2]; exact hb)
            dsimp only
            rw [if_neg (show ¬ arr l < 0 by omega)]
            refine ⟨_, _, rfl, hA, ?_⟩
            rw [decide_eq_true_iff]
            show arr u < arr l ↔ _
            rw [this, hau]
            exact ⟨fun _ => ⟨rfl, Or.inr ⟨h3, hb⟩⟩, fun _ => hsu.2⟩
        · have hno : ¬ Owns dist p v := fun h => h4 (V.owns_unique h3 h)
          dsimp only
          rcases hA.ghost l v h1 hv with h5 | h5
          · rw [if_pos (show arr l < 0 by omega), hv]
            refine ⟨_, _, rfl, ⟨?_, ?_, ?_⟩, ?_⟩
            · intro w hw hb
              rw [upd_ne _ _ (by omega)]; exact hA.border w hw hb
            · intro w hw hb
              rw [upd_ne _ _ (by omega)]; exact hA.inner w hw hb
            · intro l' v' h6 h7
              by_cases h8 : l' = l
              · subst h8
                rw [hv] at h7
                injection h7 with h7
                rw [upd_same, h7]; exact Or.inr rfl
              · rw [upd_ne _ _ h8]; exact hA.ghost l' v' h6 h7
            · rw [decide_eq_true_iff]
              show arr u < score v ↔ _
              rw [hau]
              exact ⟨fun h => ⟨rfl, Or.inl h⟩, fun h => h.2.elim id fun h => absurd h.1 hno⟩
          · rw [if_neg (show ¬ arr l < 0 by omega)]
            refine ⟨_, _, rfl, hA, ?_⟩
            rw [decide_eq_true_iff]
            show arr u < arr l ↔ _
            rw [h5, hau]
            exact ⟨fun h => ⟨rfl, Or.inl h⟩, fun h => h.2.elim id fun h => absurd h.1 hno⟩
    obtain ⟨arr1, b1, k1, k2, k3⟩ := key
    obtain ⟨arr', b', h1, h2, h3⟩ := lookAt_ok W hp hu hs hB ls arr1 b1 (fun x hx => hl x (List.mem_cons_of_mem _ hx)) k2
    refine ⟨arr', b', ?_, h2, ?_⟩
    · rw [List.foldlM_cons]
      show Option.bind (lookAt? (g p) score u (arr, b) l) _ = _
      rw [k1, Option.bind_some]
      exact h1
    · rw [h3, k3]
      constructor
      · rintro ⟨⟨h4, h5⟩, h6⟩
        refine ⟨h4, fun l' hl' v' hv' => ?_⟩
        rcases List.mem_cons.1 hl' with rfl | hl'
        · rw [hv] at hv'
          injection hv' with hv'
          subst hv'
          exact h5
        · exact h6 l' hl' v' hv'
      · rintro ⟨h4, h5⟩
        exact ⟨⟨h4, h5 l (List.mem_cons_self ..) v hv⟩, fun l' hl' => h5 l' (List.mem_cons_of_mem _ hl')⟩

/-- The node `u` of process `p` is chosen. -/
def Chosen (dist : List Nat) (inp : Nat → Input) (P : Nat → Nat) (score : Nat → Int) (p u : Nat) : Prop :=
  Border dist inp P (first dist p + u) ∧ ∀ b, IsEdge dist inp (first dist p + u) b → Allows dist inp P score p (first dist p + u) b

theorem visitBorder_ok (W : World dist inp g) {p : Nat} (hp : p < procs dist) (hs : ∀ a, 0 ≤ score a ∧ score a < max) :
    ∀ (order : List Nat) (arr : Nat → Int) (res : List Nat), (∀ u ∈ order, u < localN dist p) → Scores dist inp g P score max p arr →
    order.Nodup → res.Nodup → (∀ u ∈ order, u ∉ res) →
    ∃ arr' res', order.foldlM (visitBorder? (g p) score max) (arr, res) = some (arr', res') ∧ res'.Nodup ∧
      ∀ u, u ∈ res' ↔ u ∈ res ∨ u ∈ order ∧ Chosen dist inp P score p u
  | [], arr, res, _, _, _, hr, _ => ⟨arr, res, rfl, hr, by simp⟩
  | u :: order, arr, res, ho, hA, hn, hr, hd => by
    have hu := ho u (List.mem_cons_self ..)
    have key : ∃ arr1 res1, visitBorder? (g p) score max (arr, res) u = some (arr1, res1) ∧ Scores dist inp g P score max p arr1 ∧
        res1.Nodup ∧ ∀ w, w ∈ res1 ↔ w ∈ res ∨ w = u ∧ Chosen dist inp P score p u := by
      unfold visitBorder?
      by_cases hB : Border dist inp P (first dist p + u)
      · have hau := hA.border u hu hB
        have hsu := hs (first dist p + u)
        obtain ⟨adj, h1, h2, h3, _⟩ := W.adj hp hu
        obtain ⟨arr', b', h4, h5, h6⟩ := lookAt_ok W hp hu hs hB (adj.map (·.1)) arr true
          (fun l hl => by obtain ⟨v, _, hv⟩ := h2 l hl; exact ⟨v, hv⟩) hA
        dsimp only
        rw [if_neg (by omega), h1, Option.bind_some, h4]
        have hc : b' = true ↔ Chosen dist inp P score p u := by
          rw [h6]
          constructor
          · rintro ⟨_, h⟩
            refine ⟨hB, fun b hb => ?_⟩
            obtain ⟨l, hl, hv⟩ := h3 b (W.mem_nbs.2 hb)
            exact h l hl b hv
          · rintro ⟨_, h⟩
            refine ⟨rfl, fun l hl v hv => ?_⟩
            obtain ⟨v', hv', he⟩ := h2 l hl
            rw [hv] at he
            injection he with he
            exact h v (W.mem_nbs.1 (he ▸ hv'))
        refine ⟨_, _, rfl, h5, ?_, ?_⟩
        · dsimp only
          split
          · exact List.nodup_append.2 ⟨hr, List.nodup_singleton _, fun a ha b hb => by
              rw [List.mem_singleton.1 hb]
              exact fun h => hd u (List.mem_cons_self ..) (h ▸ ha)⟩
          · exact hr
        · intro w
          dsimp only
          split
          · rename_i hb
            rw [List.mem_append, List.mem_singleton]
            exact ⟨fun h => h.imp id fun h => ⟨h, hc.1 hb⟩, fun h => h.imp id And.left⟩
          · rename_i hb
            exact ⟨Or.inl, fun h => h.elim id fun h => absurd (hc.2 h.2) hb⟩
      · dsimp only
        rw [if_pos (hA.inner u hu hB)]
        exact ⟨arr, res, rfl, hA, hr, fun w => ⟨Or.inl, fun h => h.elim id fun h => absurd h.2.1 hB⟩⟩
    obtain ⟨arr1, res1, k1, k2, k3, k4⟩ := key
    obtain ⟨h7, h8⟩ := List.nodup_cons.1 hn
    obtain ⟨arr', res', h1, h2, h3⟩ := visitBorder_ok W hp hs order arr1 res1 (fun w hw => ho w (List.mem_cons_of_mem _ hw)) k2 h8 k3
      (fun w hw h => ((k4 w).1 h).elim (hd w (List.mem_cons_of_mem _ hw)) fun h => h7 (h.1 ▸ hw))
    refine ⟨arr', res', ?_, h2, fun w => ?_⟩
    · rw [List.foldlM_cons]
      show Option.bind (visitBorder? (g p) score max (arr, res) u) _ = _
      rw [k1, Option.bind_some]
      exact h1
    · rw [h3, k4, List.mem_cons]
      constructor
      · rintro ((h | ⟨rfl, h⟩) | ⟨h, h'⟩)
        · exact Or.inl h
        · exact Or.inr ⟨Or.inl rfl, h⟩
        · exact Or.inr ⟨Or.inr h, h'⟩
      · rintro (h | ⟨rfl | h, h'⟩)
        · exact Or.inl (Or.inl h)
        · exact Or.inl (Or.inr ⟨rfl, h'⟩)
        · exact Or.inr ⟨h, h'⟩

theorem firstScores_ok (W : World dist inp g) {p : Nat} (hp : p < procs dist) (hP : ∀ l v, (g p).localToGlobal? l = some v → part p l = P v) :
    ∃ l, (List.range (g p).totalN).mapM (firstScore? (g p) (part p) score max) = some l ∧
      Scores dist inp g P score max p fun u => l.getD u 0 := by
  classical
  have R := W.represents p hp
  have htot : localN dist p ≤ (g p).totalN := by rw [R.total]; omega
  let f : Nat → Int := fun u => if u < localN dist p then (if Border dist inp P (first dist p + u) then score (first dist p + u) else max) else -1
  have h1 : ∀ u, firstScore? (g p) (part p) score max u = some (f u) := by
    intro u
    unfold firstScore?
    rw [R.n_eq]
    show _ = some (if u < localN dist p then (if Border dist inp P (first dist p + u) then score (first dist p + u) else max) else -1)
    by_cases hu : u < localN dist p
    · obtain ⟨b, h1, h2⟩ := W.border hp hu hP
      rw [if_pos hu, if_pos hu, h1, Option.bind_some, R.own u hu]
      by_cases hb : b = true
      · rw [if_pos hb, if_pos (h2.1 hb)]; rfl
      · rw [if_neg hb, if_neg fun h => hb (h2.2 h)]
    · rw [if_neg hu, if_neg hu]
  have hget : ∀ u, u < (g p).totalN → ((List.range (g p).totalN).map f).getD u 0 = f u := fun u hu => by
    simp [hu]
  refine ⟨(List.range (g p).totalN).map f, mapM_some fun u _ => h1 u, ?_, ?_, ?_⟩
  · intro u hu hb
    rw [hget u (by omega)]
    show (if u < localN dist p then (if Border dist inp P (first dist p + u) then score (first dist p + u) else max) else -1) = _
    rw [if_pos hu, if_pos hb]
  · intro u hu hb
    rw [hget u (by omega)]
    show (if u < localN dist p then (if Border dist inp P (first dist p + u) then score (first dist p + u) else max) else -1) = _
    rw [if_pos hu, if_neg hb]
  · intro l v hl hv
    rw [hget l (lt_total hv)]
    left
    show (if l < localN dist p then (if Border dist inp P (first dist p + l) then score (first dist p + l) else max) else -1) = _
    rw [if_neg (by omega)]

/-- **C76**: on an undirected graph, the nodes that all processes together return are border nodes, no two of them are adjacent, and no
process returns a node twice.  Which nodes are returned does not depend on what the threads do. -/
theorem C76_independent_border_set (W : World dist inp g) (hsym : Symmetric dist inp) (score : Nat → Int) (max : Int)
    (hs : ∀ a, 0 ≤ score a ∧ score a < max) (part : Nat → Nat → Nat) (P : Nat → Nat)
    (hP : ∀ p l v, p < procs dist → (g p).localToGlobal? l = some v → part p l = P v) :
    ∃ I : Nat → Prop, (∀ a b, I a → I b → ¬ IsEdge dist inp a b) ∧ (∀ a, I a → ∃ b, IsEdge dist inp a b ∧ P b ≠ P a) ∧
      (∀ a, (∃ b, IsEdge dist inp a b ∧ P b ≠ P a) → (∀ b, IsEdge dist inp a b → score a < score b) → I a) ∧
      ∀ p, p < procs dist → ∀ order : List Nat, order.Perm (List.range (localN dist p)) →
        ∃ res, independentSet? (g p) (part p) score max order = some res ∧ res.Nodup ∧
          ∀ u, u ∈ res ↔ u < localN dist p ∧ I (first dist p + u) := by
  have V := W.valid 0 W.some_process
  have hex : ∀ a b, IsEdge dist inp a b → ∃ p, p < procs dist ∧ Owns dist p a ∧ first dist p + (a - first dist p) = a := by
    rintro a b ⟨p, w, hp, ho, _⟩
    have := (V.owns_iff' hp).1 ho
    exact ⟨p, hp, ho, by omega⟩
  refine ⟨fun a => ∃ p, p < procs dist ∧ Owns dist p a ∧ Chosen dist inp P score p (a - first dist p), ?_, ?_, ?_, ?_⟩
  · rintro a b ⟨p, hp, ha, h1⟩ ⟨q, hq, hb, h2⟩ he
    have ea : first dist p + (a - first dist p) = a := by have := (V.owns_iff' hp).1 ha; omega
    have eb : first dist q + (b - first dist q) = b := by have := (V.owns_iff' hq).1 hb; omega
    unfold Chosen at h1 h2
    rw [ea] at h1
    rw [eb] at h2
    have h3 := h1.2 b he
    have h4 := h2.2 a (hsym _ _ he)
    rcases h3 with h3 | h3
    · rcases h4 with h4 | h4
      · omega
      · exact h4.2 h1.1
    · exact h3.2 h2.1
  · rintro a ⟨p, hp, ha, h1⟩
    have ea : first dist p + (a - first dist p) = a := by have := (V.owns_iff' hp).1 ha; omega
    have := h1.1
    rw [ea] at this
    exact this
  · rintro a hb hl
    obtain ⟨b, hb1, hb2⟩ := hb
    obtain ⟨p, hp, ho, ea⟩ := hex a b hb1
    refine ⟨p, hp, ho, ?_⟩
    unfold Chosen
    rw [ea]
    exact ⟨⟨b, hb1, hb2⟩, fun c hc => Or.inl (hl c hc)⟩
  · intro p hp order ho
    obtain ⟨l, h1, h2⟩ := firstScores_ok (score := score) (max := max) W hp (fun l v => hP p l v hp)
    obtain ⟨arr', res', h3, h4, h5⟩ := visitBorder_ok W hp hs order _ [] (fun u hu => List.mem_range.1 (ho.mem_iff.1 hu)) h2
      (ho.nodup_iff.2 List.nodup_range) List.nodup_nil (fun _ _ => List.not_mem_nil)
    refine ⟨res', ?_, h4, fun u => ?_⟩
    · unfold independentSet?
      rw [h1, Option.bind_some, h3]; rfl
    · rw [h5, ho.mem_iff, List.mem_range]
      constructor
      · rintro (h | ⟨hu, h⟩)
        · exact absurd h List.not_mem_nil
        · refine ⟨hu, p, hp, ?_, by rw [Nat.add_sub_cancel_left]; exact h⟩
          rw [V.owns_iff' hp]; unfold localN at hu; omega
      · rintro ⟨hu, q, hq, ho', h⟩
        have : q = p := V.owns_unique ho' ((V.owns_iff' hp).2 (by unfold localN at hu; omega))
        subst this
        rw [Nat.add_sub_cancel_left] at h
        exact Or.inr ⟨hu, h⟩

/-! ## Examples -/

/-- The cycle of five nodes on three processes, with the nodes 0 and 3 in block 1: nodes 1, 2 and 4 are neighbours of block 1. -/
example : ∃ (g : Nat → DGraph) (part : Nat → Nat → Nat), World dist3 inp3 g ∧ Symmetric dist3 inp3 ∧
    ∀ p l v, p < procs dist3 → (g p).localToGlobal? l = some v → part p l = [1, 0, 0, 1, 0].getD v 0 := by
  obtain ⟨g, W⟩ := world3
  exact ⟨g, fun p l => [1, 0, 0, 1, 0].getD (((g p).localToGlobal? l).getD 0) 0, W, symmetric3, fun p l v _ h => by
    show [1, 0, 0, 1, 0].getD (((g p).localToGlobal? l).getD 0) 0 = _
    rw [h]; rfl⟩

/-- The nodes 0 (on process 0) and 3 (node 0 of process 2) are chosen, since they have the smallest scores. -/
example : (independentSet? (g3 0) (fun l => [1, 0, 0, 0, 1].getD l 0) (fun a => [3, 5, 9, 4, 7].getD a 0) 10 [2, 0, 1],
    independentSet? (g3 2) (fun l => [1, 0, 0, 1].getD l 0) (fun a => [3, 5, 9, 4, 7].getD a 0) 10 [0, 1]) = (some [0], some [0]) := by
  decide +kernel

/-- A border node is kept out by a ghost node that is not a border node: with the nodes 0, 3 and 4 in block 1, node 4 on process 2 is
not a border node, but its score 1 is smaller than the score 3 of node 0, and nothing is chosen on process 0. -/
example : independentSet? (g3 0) (fun l => [1, 0, 0, 1, 1].getD l 0) (fun a => [3, 4, 9, 8, 1].getD a 0) 10 [0, 1, 2] = some [] := by
  decide +kernel

end Verif.Dist
