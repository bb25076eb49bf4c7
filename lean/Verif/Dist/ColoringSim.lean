import Verif.Dist.ContractNodes
import Verif.Dist.JetProps
import Verif.Dist.Coloring
import Verif.Dist.ColoringSteps

/-!
# The colouring on all processes follows the colouring on the whole graph
-/

namespace Verif.Dist
open Verif Verif.Math Verif.Dist.Greedy

variable {dist : List Nat} {inp : Nat → Input} {g : Nat → DGraph}

/-- The neighbours of a node of the whole graph. -/
def nbs (dist : List Nat) (inp : Nat → Input) (a : Nat) : List Nat :=
  if a < globalN dist then ((inp (ow dist a)).neighbours (a - first dist (ow dist a))).map (·.1) else []

theorem World.own_at (W : World dist inp g) {p u : Nat} (hp : p < procs dist) (hu : u < localN dist p) :
    ow dist (first dist p + u) = p ∧ first dist p + u < globalN dist := by
  have h := owned_lt W hp hu
  refine ⟨(W.ow_eq hp h).2 ?_, h⟩
  unfold localN at hu
  omega

theorem World.nbs_own (W : World dist inp g) {p u : Nat} (hp : p < procs dist) (hu : u < localN dist p) :
    nbs dist inp (first dist p + u) = ((inp p).neighbours u).map (·.1) := by
  obtain ⟨h1, h2⟩ := W.own_at hp hu
  unfold nbs
  rw [if_pos h2, h1, Nat.add_sub_cancel_left]

theorem World.mem_nbs (W : World dist inp g) {a b : Nat} : b ∈ nbs dist inp a ↔ IsEdge dist inp a b := by
  have V := W.valid 0 W.some_process
  unfold nbs IsEdge
  constructor
  · intro h
    by_cases ha : a < globalN dist
    · rw [if_pos ha] at h
      obtain ⟨⟨b', w⟩, hx, rfl⟩ := List.mem_map.1 h
      obtain ⟨h1, h2⟩ := W.ow_bounds ha
      exact ⟨_, w, h1, (V.owns_iff' h1).2 h2, hx⟩
    · rw [if_neg ha] at h
      exact absurd h List.not_mem_nil
  · rintro ⟨p, w, hp, ho, h⟩
    have hb := (V.owns_iff' hp).1 ho
    have ha := W.lt_global hp hb.2
    rw [if_pos ha, (W.ow_eq hp ha).2 hb]
    exact List.mem_map.2 ⟨_, h, rfl⟩

theorem World.edge_lt (W : World dist inp g) {a b : Nat} (h : IsEdge dist inp a b) : a < globalN dist ∧ b < globalN dist := by
  obtain ⟨p, w, hp, ho, h⟩ := h
  have V := W.valid p hp
  have hb := (V.owns_iff' hp).1 ho
  refine ⟨W.lt_global hp hb.2, V.targets _ (V.neighbour_mem (u := a - first dist p) ?_ h)⟩
  unfold localN
  omega

theorem mapM_length {α β : Type} {f : α → Option β} : ∀ {l : List α} {r : List β}, l.mapM f = some r → r.length = l.length
  | [], r, h => by
    have : r = [] := by simpa using h.symm
    rw [this]; rfl
  | a :: l, r, h => by
    rw [List.mapM_cons] at h
    cases ha : f a with
    | none => rw [ha] at h; cases h
    | some b =>
      rw [ha] at h
      change Option.bind (l.mapM f) _ = _ at h
      cases hl : l.mapM f with
      | none => rw [hl] at h; cases h
      | some r' =>
        rw [hl] at h
        injection h with h
        rw [← h, List.length_cons, List.length_cons, mapM_length hl]

theorem World.adj (W : World dist inp g) {p u : Nat} (hp : p < procs dist) (hu : u < localN dist p) :
    ∃ adj, (g p).adjacent? u = some adj ∧
      (∀ l, l ∈ adj.map (·.1) → ∃ v, v ∈ nbs dist inp (first dist p + u) ∧ (g p).localToGlobal? l = some v) ∧
      (∀ v, v ∈ nbs dist inp (first dist p + u) → ∃ l, l ∈ adj.map (·.1) ∧ (g p).localToGlobal? l = some v) ∧
      (g p).degree? u = some (nbs dist inp (first dist p + u)).length := by
  have R := W.represents p hp
  obtain ⟨adj, h1, h2⟩ := R.neighbours u hu
  obtain ⟨h3, h4⟩ := mapM_mem h2
  rw [W.nbs_own hp hu]
  refine ⟨adj, h1, ?_, ?_, ?_⟩
  · intro l hl
    obtain ⟨x, hx, rfl⟩ := List.mem_map.1 hl
    obtain ⟨y, hy, he⟩ := h3 x hx
    rw [Option.map_eq_some_iff] at he
    obtain ⟨v, hv, rfl⟩ := he
    exact ⟨v, List.mem_map.2 ⟨_, hy, rfl⟩, hv⟩
  · intro v hv
    obtain ⟨y, hy, rfl⟩ := List.mem_map.1 hv
    obtain ⟨x, hx, he⟩ := h4 y hy
    rw [Option.map_eq_some_iff] at he
    obtain ⟨v, hv', rfl⟩ := he
    exact ⟨x.1, List.mem_map.2 ⟨_, hx, rfl⟩, hv'⟩
  · rw [List.length_map, mapM_length h2]
    unfold DGraph.adjacent? at h1
    unfold DGraph.degree?
    cases ha : (g p).nodes[u]? with
    | none => rw [ha] at h1; cases h1
    | some a =>
      rw [ha] at h1
      cases hb : (g p).nodes[u + 1]? with
      | none => rw [hb] at h1; cases h1
      | some b =>
        rw [hb] at h1
        have := mapM_length h1
        rw [List.length_range'] at this
        rw [this]; rfl

theorem le_foldl_max : ∀ (l : List Nat) (a : Nat), a ≤ l.foldl max a ∧ ∀ x ∈ l, x ≤ l.foldl max a
  | [], a => ⟨Nat.le_refl _, fun _ h => absurd h List.not_mem_nil⟩
  | b :: l, a => by
    obtain ⟨h1, h2⟩ := le_foldl_max l (max a b)
    refine ⟨Nat.le_trans (Nat.le_max_left _ _) h1, fun x hx => ?_⟩
    rcases List.mem_cons.1 hx with rfl | hx
    · exact Nat.le_trans (Nat.le_max_right _ _) h1
    · exact h2 x hx

theorem World.maxColors (W : World dist inp g) : ∃ size, maxColors? (procs dist) g = some size ∧
    ∀ a, (nbs dist inp a).length + 1 ≤ size := by
  have h1 : ∀ p, p < procs dist → maxDegree? (g p) = some
      (((List.range (localN dist p)).map fun u => (nbs dist inp (first dist p + u)).length).foldl max 0) := by
    intro p hp
    unfold maxDegree?
    rw [(W.represents p hp).n_eq, mapM_some (g := fun u => (nbs dist inp (first dist p + u)).length)]
    · rfl
    · intro u hu
      obtain ⟨_, _, _, _, h⟩ := W.adj hp (List.mem_range.1 hu)
      exact h
  refine ⟨((List.range (procs dist)).map fun p =>
    ((List.range (localN dist p)).map fun u => (nbs dist inp (first dist p + u)).length).foldl max 0).foldl max 0 + 1, ?_, ?_⟩
  · unfold maxColors?
    rw [mapM_some (g := fun p => ((List.range (localN dist p)).map fun u => (nbs dist inp (first dist p + u)).length).foldl max 0)]
    · rfl
    · intro p hp
      exact h1 p (List.mem_range.1 hp)
  · intro a
    by_cases ha : a < globalN dist
    · obtain ⟨h2, h3, h4⟩ := W.ow_bounds ha
      have h5 := (le_foldl_max ((List.range (localN dist (ow dist a))).map fun u => (nbs dist inp (first dist (ow dist a) + u)).length) 0).2
        (nbs dist inp a).length (List.mem_map.2 ⟨a - first dist (ow dist a), List.mem_range.2 (by unfold localN; omega), by
          rw [show first dist (ow dist a) + (a - first dist (ow dist a)) = a by omega]⟩)
      have h6 := (le_foldl_max ((List.range (procs dist)).map fun p =>
        ((List.range (localN dist p)).map fun u => (nbs dist inp (first dist p + u)).length).foldl max 0) 0).2 _
        (List.mem_map.2 ⟨ow dist a, List.mem_range.2 h2, rfl⟩)
      omega
    · unfold nbs
      rw [if_neg ha, List.length_nil]
      omega

/-! ## One node -/

/-- Process `p` holds its part of the state of the whole graph. -/
structure Holds (dist : List Nat) (g : Nat → DGraph) (p : Nat) (s : Colors) (t : CS) : Prop where
  color : ∀ l v, (g p).localToGlobal? l = some v → s.color l = t.1 v
  active : ∀ u, u < localN dist p → s.active u = t.2 (first dist p + u)

theorem mark_ok {p : Nat} {s : Colors} {t : CS} {size u : Nat} (H : Holds dist g p s t)
    (hu : (g p).localToGlobal? u = some (first dist p + u)) (hb : ∀ a, t.1 a ≤ size) :
    ∀ (ls : List Nat) (m : List Nat), (∀ l ∈ ls, ∃ v, (g p).localToGlobal? l = some v) →
    ∃ m', ls.foldlM (markColor? (g p) size s.color u) m = some m' ∧
      ∀ x, x ∈ m' ↔ x ∈ m ∨ ∃ l ∈ ls, ∃ v, (g p).localToGlobal? l = some v ∧ seen t.1 (first dist p + u) v = true ∧ x = t.1 v - 1
  | [], m, _ => ⟨m, rfl, fun x => ⟨fun h => Or.inl h, fun h => h.elim id fun ⟨_, h, _⟩ => absurd h List.not_mem_nil⟩⟩
  | l :: ls, m, h => by
    obtain ⟨v, hv⟩ := h l (List.mem_cons_self ..)
    have hcv := H.color l v hv
    have hcu := H.color u _ hu
    have hsz := hb v
    have key : markColor? (g p) size s.color u m l =
        some (if seen t.1 (first dist p + u) v = true then (t.1 v - 1) :: m else m) := by
      unfold markColor?
      rw [hv, hu, hcv, hcu, Option.bind_some, Option.bind_some]
      unfold seen
      by_cases h0 : t.1 v = 0
      · simp [h0]
      · have h1 : t.1 v - 1 < size := by omega
        by_cases h2 : t.1 (first dist p + u) = 0
        · simp [h0, h1, h2]
        · by_cases h3 : t.1 v = t.1 (first dist p + u) ∧ first dist p + u < v
          · simp [h2, h3]
          · rw [if_pos h0, if_neg h2, if_pos h3, if_pos h1, if_pos]
            simp only [Bool.and_eq_true, bne_iff_ne, ne_eq, h0, not_false_eq_true, true_and, Bool.or_eq_true, beq_iff_eq, h2,
              false_or, Bool.not_eq_true', Bool.and_eq_false_iff, beq_eq_false_iff_ne, decide_eq_false_iff_not]
            by_cases h4 : t.1 v = t.1 (first dist p + u)
            · exact Or.inr fun h5 => h3 ⟨h4, h5⟩
            · exact Or.inl h4
    obtain ⟨m', h1, h2⟩ := mark_ok H hu hb ls (if seen t.1 (first dist p + u) v = true then (t.1 v - 1) :: m else m)
      fun x hx => h x (List.mem_cons_of_mem _ hx)
    refine ⟨m', ?_, fun x => (h2 x).trans ?_⟩
    · rw [List.foldlM_cons]
      show Option.bind (markColor? (g p) size s.color u m l) _ = _
      rw [key, Option.bind_some]
      exact h1
    · constructor
      · rintro (hx | ⟨l', hl', hr⟩)
        · by_cases hs : seen t.1 (first dist p + u) v = true
          · rw [if_pos hs] at hx
            rcases List.mem_cons.1 hx with hx | hx
            · exact Or.inr ⟨l, List.mem_cons_self .., v, hv, hs, hx⟩
            · exact Or.inl hx
          · rw [if_neg hs] at hx
            exact Or.inl hx
        · exact Or.inr ⟨l', List.mem_cons_of_mem _ hl', hr⟩
      · rintro (hx | ⟨l', hl', v', hv', hs, hx⟩)
        · left
          split
          · exact List.mem_cons_of_mem _ hx
          · exact hx
        · rcases List.mem_cons.1 hl' with rfl | hl'
          · rw [hv] at hv'
            injection hv' with hv'
            subst hv'
            left
            rw [if_pos hs, hx]
            exact List.mem_cons_self ..
          · exact Or.inr ⟨l', hl', v', hv', hs, hx⟩

theorem firstUnmarked_mex {size : Nat} {m' m : List Nat} (h : ∀ x, x ∈ m' ↔ x + 1 ∈ m) (hl : m.length < size) :
    FlatBip.firstUnmarked size (fun x => decide (x ∈ m')) + 1 = mex m := by
  obtain ⟨h1, h2, h3, h4⟩ := mex_spec m
  have key : (List.range size).find? (fun u => !decide (u ∈ m')) = some (mex m - 1) := by
    rw [List.find?_eq_some_iff_append]
    refine ⟨?_, List.range (mex m - 1), List.range' (mex m) (size - mex m), ?_, ?_⟩
    · have : mex m - 1 ∉ m' := fun hx => h1 (by have := (h _).1 hx; rwa [show mex m - 1 + 1 = mex m by omega] at this)
      simp [this]
    · rw [List.range_eq_range', List.range_eq_range',
        show (mex m - 1) :: List.range' (mex m) (size - mex m) = List.range' (0 + (mex m - 1)) (size - mex m + 1) by
          rw [List.range'_succ, show 0 + (mex m - 1) = mex m - 1 by omega, show mex m - 1 + 1 = mex m by omega],
        List.range'_append_1]
      congr 1; omega
    · intro y hy
      have := (h y).2 (h4 (y + 1) (by omega) (by have := List.mem_range.1 hy; omega))
      simp [this]
  unfold FlatBip.firstUnmarked
  rw [key, Option.getD_some]
  omega

theorem colorNode_ok (W : World dist inp g) {p : Nat} (hp : p < procs dist) {s : Colors} {t : CS} {size u : Nat} (H : Holds dist g p s t)
    (hu : u < localN dist p) (hb : ∀ a, t.1 a ≤ (nbs dist inp a).length + 1) (hsize : ∀ a, (nbs dist inp a).length + 1 ≤ size) :
    ∃ s', colorNode? (g p) size s u = some s' ∧ Holds dist g p s' (nodeStep (nbs dist inp) (ow dist) t (first dist p + u)) := by
  have R := W.represents p hp
  have hgu := R.own u hu
  obtain ⟨adj, h1, h2, h3, _⟩ := W.adj hp hu
  obtain ⟨m', h4, h5⟩ := mark_ok H hgu (fun a => Nat.le_trans (hb a) (hsize a)) (adj.map (·.1)) []
    fun l hl => by obtain ⟨v, _, hv⟩ := h2 l hl; exact ⟨v, hv⟩
  have hmem : ∀ x, x ∈ m' ↔ x + 1 ∈ marks (nbs dist inp) t.1 (first dist p + u) := by
    intro x
    rw [h5]
    unfold marks
    rw [List.mem_map]
    constructor
    · rintro (h | ⟨l, hl, v, hv, hs, hx⟩)
      · exact absurd h List.not_mem_nil
      · obtain ⟨v', hv', he⟩ := h2 l hl
        rw [hv] at he
        injection he with he
        subst he
        have : t.1 v ≠ 0 := by
          unfold seen at hs
          simp at hs
          exact hs.1
        exact ⟨v, List.mem_filter.2 ⟨hv', hs⟩, by omega⟩
    · rintro ⟨v, hv, hx⟩
      obtain ⟨hv, hs⟩ := List.mem_filter.1 hv
      obtain ⟨l, hl, hv'⟩ := h3 v hv
      exact Or.inr ⟨l, hl, v, hv', hs, by omega⟩
  have hlen := Nat.lt_of_lt_of_le (Nat.lt_succ_of_le (marks_length (nb := nbs dist inp) t.1 (first dist p + u))) (hsize _)
  have hfirst := firstUnmarked_mex hmem hlen
  have hghost : (adj.map (·.1)).any (g p).isGhost = far (nbs dist inp) (ow dist) (first dist p + u) := by
    unfold far
    rw [Bool.eq_iff_iff, List.any_eq_true, List.any_eq_true]
    have hown := (W.own_at hp hu).1
    have key : ∀ l v, v ∈ nbs dist inp (first dist p + u) → (g p).localToGlobal? l = some v →
        ((g p).isGhost l = true ↔ (ow dist v != ow dist (first dist p + u)) = true) := by
      intro l v hv hl
      rw [R.is_ghost l v (lt_total hl) hl, hown, bne_iff_ne, ne_eq, W.ow_eq hp (W.edge_lt (W.mem_nbs.1 hv)).2,
        (W.valid p hp).owns_iff' hp]
    constructor
    · rintro ⟨l, hl, hg⟩
      obtain ⟨v, hv, he⟩ := h2 l hl
      exact ⟨v, hv, (key l v hv he).1 hg⟩
    · rintro ⟨v, hv, hg⟩
      obtain ⟨l, hl, he⟩ := h3 v hv
      exact ⟨l, hl, (key l v hv he).2 hg⟩
  have hcu := H.color u _ hgu
  have hau := H.active u hu
  have hin : ∀ l v, (g p).localToGlobal? l = some v → (l = u ↔ v = first dist p + u) := by
    intro l v hl
    constructor
    · rintro rfl
      rw [hgu] at hl
      injection hl with hl
      exact hl.symm
    · rintro rfl
      have e1 := R.inverse l _ (lt_total hl) hl
      have e2 := R.inverse u _ (lt_total hgu) hgu
      rw [e1] at e2
      injection e2
  have hupd : ∀ x l v, (g p).localToGlobal? l = some v → upd s.color u x l = upd t.1 (first dist p + u) x v := by
    intro x l v hl
    unfold upd
    by_cases h : l = u
    · rw [if_pos h, if_pos ((hin l v hl).1 h)]
    · rw [if_neg h, if_neg fun h' => h ((hin l v hl).2 h')]
      exact H.color l v hl
  have hupda : ∀ w, w < localN dist p → upd s.active u false w = upd t.2 (first dist p + u) false (first dist p + w) := by
    intro w hw
    unfold upd
    by_cases h : w = u
    · rw [if_pos h, if_pos (by omega)]
    · rw [if_neg h, if_neg (by omega)]
      exact H.active w hw
  unfold colorNode? nodeStep
  rw [hau]
  cases ha : t.2 (first dist p + u) with
  | false => exact ⟨s, rfl, by simpa using H⟩
  | true =>
    rw [if_pos rfl, if_pos rfl, h1, Option.bind_some, h4, Option.bind_some, hcu, hghost, hfirst]
    by_cases h0 : t.1 (first dist p + u) = 0
    · rw [if_pos h0, if_pos h0]
      refine ⟨_, rfl, hupd _, ?_⟩
      cases far (nbs dist inp) (ow dist) (first dist p + u) with
      | true => exact H.active
      | false => exact hupda
    · rw [if_neg h0, if_neg h0, if_pos (by have := hb (first dist p + u); have := hsize (first dist p + u); omega)]
      have e : t.1 (first dist p + u) - 1 ∈ m' ↔ t.1 (first dist p + u) ∈ marks (nbs dist inp) t.1 (first dist p + u) := by
        rw [hmem, show t.1 (first dist p + u) - 1 + 1 = t.1 (first dist p + u) by omega]
      by_cases hm : t.1 (first dist p + u) ∈ marks (nbs dist inp) t.1 (first dist p + u)
      · rw [if_pos (e.2 hm), if_pos hm]
        exact ⟨_, rfl, hupd _, H.active⟩
      · rw [if_neg fun h => hm (e.1 h), if_neg hm]
        exact ⟨_, rfl, H.color, hupda⟩

/-! ## The nodes of one process -/

/-- The nodes that process `p` visits in superstep `i`. -/
def visit (dist : List Nat) (S p i : Nat) : List Nat :=
  (List.range' (lrFrom (localN dist p) S i) (lrFrom (localN dist p) S (i + 1) - lrFrom (localN dist p) S i)).map (first dist p + ·)

theorem bound_node {t : CS} (h : ∀ a, t.1 a ≤ (nbs dist inp a).length + 1) (b a : Nat) :
    (nodeStep (nbs dist inp) (ow dist) t b).1 a ≤ (nbs dist inp a).length + 1 := by
  by_cases hab : a = b
  · subst hab; exact node_bound (h a)
  · rw [(node_other t hab).1]; exact h a

theorem colorNodes_ok (W : World dist inp g) {p : Nat} (hp : p < procs dist) {size : Nat} (hsize : ∀ a, (nbs dist inp a).length + 1 ≤ size) :
    ∀ (us : List Nat) (s : Colors) (t : CS), (∀ u ∈ us, u < localN dist p) → Holds dist g p s t →
      (∀ a, t.1 a ≤ (nbs dist inp a).length + 1) →
      ∃ s', us.foldlM (colorNode? (g p) size) s = some s' ∧ Holds dist g p s' (run (nbs dist inp) (ow dist) t (us.map (first dist p + ·)))
  | [], s, _, _, H, _ => ⟨s, rfl, H⟩
  | u :: us, s, t, hus, H, hb => by
    obtain ⟨s1, h1, h2⟩ := colorNode_ok W hp H (hus u (List.mem_cons_self ..)) hb hsize
    obtain ⟨s', h3, h4⟩ := colorNodes_ok W hp hsize us s1 _ (fun v hv => hus v (List.mem_cons_of_mem _ hv)) h2 (bound_node hb _)
    refine ⟨s', ?_, h4⟩
    rw [List.foldlM_cons]
    show Option.bind (colorNode? (g p) size s u) _ = _
    rw [h1, Option.bind_some]
    exact h3

theorem lr_le {n S i : Nat} (hi : i < S) : lrFrom n S (i + 1) ≤ n := by
  have := lrFrom_mono (n := n) (p := S) (show i + 1 ≤ S by omega)
  rw [lrFrom_last (by omega)] at this
  exact this

theorem colorRange_ok (W : World dist inp g) {p : Nat} (hp : p < procs dist) {size : Nat} (hsize : ∀ a, (nbs dist inp a).length + 1 ≤ size)
    {S i : Nat} (hi : i < S) {s : Colors} {t : CS} (H : Holds dist g p s t) (hb : ∀ a, t.1 a ≤ (nbs dist inp a).length + 1) :
    ∃ s', colorRange? (g p) S size i s = some s' ∧ Holds dist g p s' (run (nbs dist inp) (ow dist) t (visit dist S p i)) := by
  unfold colorRange? visit
  rw [(W.represents p hp).n_eq, localRange_eq (by omega) hi, Option.bind_some]
  refine colorNodes_ok W hp hsize _ s t ?_ H hb
  intro u hu
  rw [List.mem_range'_1] at hu
  dsimp only at hu
  have := lr_le (n := localN dist p) hi
  omega

theorem mem_visit {S p i a : Nat} : a ∈ visit dist S p i ↔
    ∃ u, a = first dist p + u ∧ lrFrom (localN dist p) S i ≤ u ∧ u < lrFrom (localN dist p) S (i + 1) := by
  unfold visit
  rw [List.mem_map]
  constructor
  · rintro ⟨u, hu, rfl⟩
    rw [List.mem_range'_1] at hu
    exact ⟨u, rfl, by omega, by omega⟩
  · rintro ⟨u, rfl, h1, h2⟩
    exact ⟨u, by rw [List.mem_range'_1]; omega, rfl⟩

theorem lr_cover {n S : Nat} (hS : 0 < S) {u : Nat} (hu : u < n) : ∃ i, i < S ∧ lrFrom n S i ≤ u ∧ u < lrFrom n S (i + 1) := by
  by_contra h
  have key : ∀ i, i ≤ S → lrFrom n S i ≤ u := by
    intro i
    induction i with
    | zero => intro _; rw [lrFrom_zero]; omega
    | succ i ih =>
      intro hi
      by_contra hlt
      exact h ⟨i, by omega, ih (by omega), by omega⟩
  have := key S (Nat.le_refl _)
  rw [lrFrom_last hS] at this
  omega

/-- The lists of visited nodes, without processes that do not exist. -/
def visits (dist : List Nat) (S p i : Nat) : List Nat := if p < procs dist then visit dist S p i else []

theorem World.visits (W : World dist inp g) {S : Nat} (hS : 0 < S) : Visits (ow dist) (visits dist S) S (procs dist) (globalN dist) where
  nodup p i _ := by
    unfold Dist.visits visit
    split
    · exact List.Nodup.map (fun _ _ h => Nat.add_left_cancel h) (List.nodup_range' 1)
    · exact List.nodup_nil
  owner p i a hi ha := by
    unfold Dist.visits at ha
    split at ha
    · rename_i hp
      obtain ⟨u, rfl, h1, h2⟩ := mem_visit.1 ha
      exact (W.own_at hp (Nat.lt_of_lt_of_le h2 (lr_le hi))).1
    · exact absurd ha List.not_mem_nil
  all a ha := by
    obtain ⟨h1, h2, h3⟩ := W.ow_bounds ha
    refine ⟨h1, ?_⟩
    obtain ⟨i, hi, h4, h5⟩ := lr_cover hS (n := localN dist (ow dist a)) (u := a - first dist (ow dist a)) (by unfold localN; omega)
    refine ⟨i, hi, ?_⟩
    unfold Dist.visits
    rw [if_pos h1]
    exact mem_visit.2 ⟨a - first dist (ow dist a), by omega, h4, h5⟩

theorem World.visits_lt (W : World dist inp g) {S p i a : Nat} (hp : p < procs dist) (hi : i < S) (ha : a ∈ Dist.visits dist S p i) :
    a < globalN dist := by
  unfold Dist.visits at ha
  rw [if_pos hp] at ha
  obtain ⟨u, rfl, h1, h2⟩ := mem_visit.1 ha
  exact (W.own_at hp (Nat.lt_of_lt_of_le h2 (lr_le hi))).2

end Verif.Dist
